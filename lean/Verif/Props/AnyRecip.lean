import Verif.Props.TrapRecip

/-!
Property C218, continued: reciprocity of transients for all differentiation formulas and all sequences of steps, as long as both
analyses take the same steps.
-/

namespace Verif.TranRecip
open Verif.Circuit Verif.Mna Verif.Dyn Verif.Op Verif.Tran Verif.Rlc Verif.Recip Verif.Conserve Matrix

variable {K : Type} [Field K] [LinearOrder K] [IsStrictOrderedRing K] {m : Nat}

/-! ### Matrices that go with a pencil -/

section
omit [LinearOrder K] [IsStrictOrderedRing K]

/-- symmetric matrices that can be moved between the matrices of the pencil of `G` and `D` -/
def Pen (G D P : Matrix (Fin m) (Fin m) K) : Prop := P.transpose = P ∧ G * P * D = D * P * G

variable {G D : Matrix (Fin m) (Fin m) K}

theorem pen_zero : Pen G D 0 := by simp [Pen]

theorem pen_add {P Q : Matrix (Fin m) (Fin m) K} (hP : Pen G D P) (hQ : Pen G D Q) : Pen G D (P + Q) :=
  ⟨by rw [transpose_add, hP.1, hQ.1], by rw [mul_add, add_mul, mul_add, add_mul, hP.2, hQ.2]⟩

theorem pen_smul {P : Matrix (Fin m) (Fin m) K} (a : K) (hP : Pen G D P) : Pen G D (a • P) :=
  ⟨by rw [transpose_smul, hP.1], by rw [mul_smul_comm, smul_mul_assoc, mul_smul_comm, smul_mul_assoc, hP.2]⟩

theorem pen_inv (hG : G.transpose = G) (hD : D.transpose = D) {c : K} (hd : (G + c • D).det ≠ 0) : Pen G D (G + c • D)⁻¹ := by
  obtain ⟨A, hA⟩ : ∃ A, A = G + c • D := ⟨_, rfl⟩
  rw [← hA] at hd ⊢
  have l : A⁻¹ * A = 1 := Matrix.nonsing_inv_mul _ (isUnit_iff_ne_zero.2 hd)
  have r : A * A⁻¹ = 1 := Matrix.mul_nonsing_inv _ (isUnit_iff_ne_zero.2 hd)
  have eG : G = A - c • D := by rw [hA, add_sub_cancel_right]
  refine ⟨by rw [transpose_nonsing_inv, hA, transpose_add, transpose_smul, hG, hD], ?_⟩
  rw [eG, sub_mul, sub_mul, r, one_mul, mul_sub, mul_assoc D, l, mul_one, smul_mul_assoc, smul_mul_assoc, mul_smul_comm]

theorem pen_mul (hG : G.transpose = G) (hD : D.transpose = D) {c : K} (hd : (G + c • D).det ≠ 0) {P : Matrix (Fin m) (Fin m) K}
    (hP : Pen G D P) : Pen G D ((G + c • D)⁻¹ * (D * P)) := by
  have hi := pen_inv hG hD hd
  obtain ⟨A, hA⟩ : ∃ A, A = G + c • D := ⟨_, rfl⟩
  rw [← hA] at hd hi ⊢
  have l : A⁻¹ * A = 1 := Matrix.nonsing_inv_mul _ (isUnit_iff_ne_zero.2 hd)
  have r : A * A⁻¹ = 1 := Matrix.mul_nonsing_inv _ (isUnit_iff_ne_zero.2 hd)
  have c1 : A * P * D = D * P * A := by
    rw [hA, add_mul, add_mul, mul_add, hP.2, smul_mul_assoc, smul_mul_assoc, mul_smul_comm]
  have c2 : A⁻¹ * (D * P) = P * D * A⁻¹ := by
    calc A⁻¹ * (D * P) = A⁻¹ * (D * P * A) * A⁻¹ := by rw [mul_assoc A⁻¹, mul_assoc (D * P), r, mul_one]
      _ = (A⁻¹ * A) * (P * D * A⁻¹) := by rw [← c1]; simp only [mul_assoc]
      _ = _ := by rw [l, one_mul]
  constructor
  · rw [transpose_mul, transpose_mul, hP.1, hi.1, hD, c2]
  · calc G * (A⁻¹ * (D * P)) * D = (G * A⁻¹ * D) * (P * D) := by simp only [mul_assoc]
      _ = D * A⁻¹ * (G * P * D) := by rw [hi.2]; simp only [mul_assoc]
      _ = _ := by rw [hP.2]; simp only [mul_assoc]

/-- the answers of the same kind to the sources `u` and `w` -/
def Lin (G D : Matrix (Fin m) (Fin m) K) (u w a b : Fin m → K) : Prop := ∃ P, Pen G D P ∧ a = P *ᵥ u ∧ b = P *ᵥ w

variable {u w a b a' b' : Fin m → K}

theorem lin_zero : Lin G D u w 0 0 := ⟨0, pen_zero, by simp, by simp⟩

theorem lin_add (h : Lin G D u w a b) (h' : Lin G D u w a' b') : Lin G D u w (a + a') (b + b') := by
  obtain ⟨P, hP, rfl, rfl⟩ := h
  obtain ⟨Q, hQ, rfl, rfl⟩ := h'
  exact ⟨P + Q, pen_add hP hQ, by rw [add_mulVec], by rw [add_mulVec]⟩

theorem lin_smul (k : K) (h : Lin G D u w a b) : Lin G D u w (k • a) (k • b) := by
  obtain ⟨P, hP, rfl, rfl⟩ := h
  exact ⟨k • P, pen_smul k hP, by rw [smul_mulVec], by rw [smul_mulVec]⟩

theorem lin_dot (h : Lin G D u w a b) : a ⬝ᵥ w = b ⬝ᵥ u := by
  obtain ⟨P, hP, rfl, rfl⟩ := h
  rw [dotProduct_comm, bil_symm hP.1, dotProduct_comm]

/-- a step -/
theorem lin_step (hG : G.transpose = G) (hD : D.transpose = D) {c f : K} (hd : (G + c • D).det ≠ 0) {x y p q : Fin m → K}
    (h : Lin G D u w p q) (hx : G *ᵥ x + D *ᵥ (c • x + p) + f • u = 0) (hy : G *ᵥ y + D *ᵥ (c • y + q) + f • w = 0) :
    Lin G D u w x y := by
  obtain ⟨P, hP, rfl, rfl⟩ := h
  have key : ∀ {x u : Fin m → K}, G *ᵥ x + D *ᵥ (c • x + P *ᵥ u) + f • u = 0 →
      x = ((-f) • (G + c • D)⁻¹ + (-1 : K) • ((G + c • D)⁻¹ * (D * P))) *ᵥ u := by
    intro x u hx
    rw [Matrix.mulVec_add, mulVec_smul, ← smul_mulVec, ← add_assoc, ← add_mulVec, mulVec_mulVec, add_assoc] at hx
    have h3 := congrArg ((G + c • D)⁻¹ *ᵥ ·) (eq_neg_of_add_eq_zero_left hx)
    simp only [mulVec_mulVec, Matrix.nonsing_inv_mul _ (isUnit_iff_ne_zero.2 hd), one_mulVec] at h3
    rw [h3, mulVec_neg, Matrix.mulVec_add, mulVec_smul, mulVec_mulVec, add_mulVec, smul_mulVec, smul_mulVec, neg_smul, neg_smul, one_smul]
    abel
  exact ⟨_, pen_add (pen_smul _ (pen_inv hG hD hd)) (pen_smul _ (pen_mul hG hD hd hP)), key hx, key hy⟩

/-! ### The formulas -/

/-- entries of the two histories -/
def Rel (G D : Matrix (Fin m) (Fin m) K) (u w : Fin m → K) (e1 e2 : Entry K m) : Prop :=
  e1.t = e2.t ∧ Lin G D u w e1.x e2.x ∧ ((e1.dx = none ∧ e2.dx = none) ∨ ∃ d1 d2, e1.dx = some d1 ∧ e2.dx = some d2 ∧ Lin G D u w d1 d2)

variable {b1 b2 : List (Entry K m)}

theorem rel_get (h : List.Forall₂ (Rel G D u w) b1 b2) (k : Nat) :
    (b1[k]? = none ∧ b2[k]? = none) ∨ ∃ e1 e2, b1[k]? = some e1 ∧ b2[k]? = some e2 ∧ Rel G D u w e1 e2 := by
  induction h generalizing k with
  | nil => simp
  | cons h _ ih =>
    cases k with
    | zero => exact .inr ⟨_, _, rfl, rfl, h⟩
    | succ k => simpa using ih k

theorem tAt_eq (h : List.Forall₂ (Rel G D u w) b1 b2) : tAt b1 = tAt b2 := by
  funext k
  unfold tAt
  rcases rel_get h k with ⟨h1, h2⟩ | ⟨e1, e2, h1, h2, h3⟩
  · rw [h1, h2]
  · rw [h1, h2]; simp [h3.1]

theorem xAt_lin (h : List.Forall₂ (Rel G D u w) b1 b2) (k : Nat) : Lin G D u w (fun i => xAt b1 k i) (fun i => xAt b2 k i) := by
  unfold xAt
  rcases rel_get h k with ⟨h1, h2⟩ | ⟨e1, e2, h1, h2, h3⟩
  · rw [h1, h2]; exact lin_zero
  · rw [h1, h2]; exact h3.2.1

theorem dxAt_lin (h : List.Forall₂ (Rel G D u w) b1 b2) (k : Nat) : Lin G D u w (fun i => dxAt b1 k i) (fun i => dxAt b2 k i) := by
  unfold dxAt
  rcases rel_get h k with ⟨h1, h2⟩ | ⟨e1, e2, h1, h2, h3⟩
  · rw [h1, h2]; exact lin_zero
  · rw [h1, h2]
    rcases h3.2.2 with ⟨n1, n2⟩ | ⟨d1, d2, n1, n2, n3⟩
    · simp only [Option.bind_some, n1, n2]; exact lin_zero
    · simp only [Option.bind_some, n1, n2]; exact n3

theorem euler_lin (h : List.Forall₂ (Rel G D u w) b1 b2) (step : K) (p : Bool) {f1 : Formula K m} (h1 : eulerDf b1 step p = .ok f1) :
    ∃ f2, eulerDf b2 step p = .ok f2 ∧ f2.c1 = f1.c1 ∧ Lin G D u w f1.c0 f2.c0 := by
  unfold eulerDf at h1 ⊢
  rw [h.length_eq] at h1
  split at h1
  · cases h1
  · rename_i hn
    rw [if_neg hn]
    simp only [Except.ok.injEq] at h1
    subst h1
    refine ⟨_, rfl, rfl, ?_⟩
    have := lin_smul (-1 / step) (xAt_lin h 0)
    simp only [DF.implicitEuler]
    exact this

theorem trap_lin (h : List.Forall₂ (Rel G D u w) b1 b2) (step : K) (p : Bool) {f1 : Formula K m} (h1 : trapDf b1 step p = .ok f1) :
    ∃ f2, trapDf b2 step p = .ok f2 ∧ f2.c1 = f1.c1 ∧ Lin G D u w f1.c0 f2.c0 := by
  have hx := xAt_lin h 0
  have hdx := dxAt_lin h 0
  have hl := h.length_eq
  cases h with
  | nil => cases h1
  | cons he hr =>
    rename_i e1 e2 r1 r2
    have hn : e1.dx.isNone = e2.dx.isNone := by
      rcases he.2.2 with ⟨n1, n2⟩ | ⟨d1, d2, n1, n2, -⟩ <;> simp [n1, n2]
    unfold trapDf at h1 ⊢
    simp only [hn, hl] at h1
    split at h1
    · cases h1
    · rename_i q1
      split at h1
      · cases h1
      · rename_i q2
        split at h1
        · cases h1
        · rename_i q3
          simp only [Except.ok.injEq] at h1
          subst h1
          simp only [q1, q2, q3, if_false, Bool.false_eq_true]
          refine ⟨_, rfl, rfl, ?_⟩
          have := lin_smul (-1 : K) (lin_add (lin_smul (2 / step) hx) hdx)
          simp only [DF.trap]
          exact this

theorem gear_lin (h : List.Forall₂ (Rel G D u w) b1 b2) (n : Nat) (step : K) (p : Bool) {f1 : Formula K m}
    (h1 : gearDf n b1 step p = .ok f1) : ∃ f2, gearDf n b2 step p = .ok f2 ∧ f2.c1 = f1.c1 ∧ Lin G D u w f1.c0 f2.c0 := by
  have ht := tAt_eq h
  unfold gearDf at h1 ⊢
  rw [h.length_eq] at h1
  split at h1
  · cases h1
  · rename_i hn
    rw [if_neg hn]
    simp only [Except.ok.injEq] at h1
    subst h1
    refine ⟨_, rfl, by simp only [ht], ?_⟩
    simp only [DF.gear, ht]
    have key : ∀ (l : List Nat) (a b : Fin m → K), Lin G D u w a b →
        Lin G D u w (fun i => l.foldl (fun s k => s + DF.gearGamma n (DF.gearS (tAt b2) step) (k + 1) * xAt b1 k i) (a i))
          (fun i => l.foldl (fun s k => s + DF.gearGamma n (DF.gearS (tAt b2) step) (k + 1) * xAt b2 k i) (b i)) := by
      intro l
      induction l with
      | nil => intro a b hab; exact hab
      | cons k l ih =>
        intro a b hab
        exact ih _ _ (lin_add hab (lin_smul _ (xAt_lin h k)))
    exact key _ 0 0 lin_zero

theorem formula_lin (h : List.Forall₂ (Rel G D u w) b1 b2) (mt : Tran.Meth) (ctl : Bool) (iter : Nat) (step : K) {f1 : Formula K m}
    (h1 : formula mt ctl iter b1 step = .ok f1) :
    ∃ f2, formula mt ctl iter b2 step = .ok f2 ∧ f2.c1 = f1.c1 ∧ Lin G D u w f1.c0 f2.c0 := by
  unfold formula at h1 ⊢
  split at h1
  · rename_i hi
    cases h with
    | nil => cases h1
    | cons he hr =>
      simp only [if_pos hi]
      exact euler_lin (.cons he .nil) step _ h1
  · rename_i hi
    simp only [if_neg hi]
    cases mt with
    | euler => exact euler_lin h step _ h1
    | trap => exact trap_lin h step _ h1
    | gear n => exact gear_lin h n step _ h1

end

/-! ### Runs -/

/-- two nets that differ in the place of their source -/
structure Nets (n1 n2 : Net K m) (f : K → K) (u w : Fin m → K) : Prop where
  mna : n2.mna = n1.mna
  D : n2.D = n1.D
  nn : n2.nn = n1.nn
  gmin : n2.gmin = n1.gmin
  lin1 : n1.nonlinear = false
  lin2 : n2.nonlinear = false
  lock1 : n1.locked = []
  lock2 : n2.locked = []
  symG : (n1.mna + gminMat n1.nn n1.gmin).transpose = n1.mna + gminMat n1.nn n1.gmin
  symD : n1.D.transpose = n1.D
  src1 : ∀ t, n1.N + n1.Tt t = f t • u
  src2 : ∀ t, n2.N + n2.Tt t = f t • w

/-- the states of two analyses that take the same steps -/
structure Sim (G D : Matrix (Fin m) (Fin m) K) (u w : Fin m → K) (s1 s2 : St K m) : Prop where
  time : s1.time = s2.time
  tstep : s1.tstep = s2.tstep
  iter : s1.iter = s2.iter
  buf : List.Forall₂ (Rel G D u w) s1.buf s2.buf
  points : List.Forall₂ (Rel G D u w) s1.points s2.points

variable {n1 n2 : Net K m} {f : K → K} {u w : Fin m → K} {c : Cfg K}

theorem pass_sim (H : Nets n1 n2 f u w) (ho : Plain c.o) (hstd : c.o.meth.std = true) {x0 y0 : Fin m → K} {a : Ctl K} {s1 s2 s1' s2' : St K m}
    (hs : Sim (n1.mna + gminMat n1.nn n1.gmin) n1.D u w s1 s2)
    (hr : ∀ g, formula c.meth c.control s1.iter s1.buf s1.tstep = .ok g → (n1.mna + g.c1 • n1.D + gminMat n1.nn n1.gmin).det ≠ 0)
    (h1 : pass c n1 x0 s1 a = .running s1') (h2 : pass c n2 y0 s2 a = .running s2') :
    Sim (n1.mna + gminMat n1.nn n1.gmin) n1.D u w s1' s2' := by
  unfold pass at h1 h2
  split at h1
  · cases h1
  · rename_i f1 hf1
    obtain ⟨f2, hf2, hc, hl⟩ := formula_lin hs.buf c.meth c.control s1.iter s1.tstep hf1
    rw [hs.iter, hs.tstep] at hf2
    rw [hf2] at h2
    simp only at h2
    have hd := hr f1 hf1
    have hd2 : (n2.mna + f2.c1 • n2.D + gminMat n2.nn n2.gmin).det ≠ 0 := by
      rw [H.mna, H.D, H.nn, H.gmin, hc]; exact hd
    obtain ⟨z1, e1, -⟩ := dcSolve_regular (c := n1.at f1 (s1.time + s1.tstep)) ho hstd ⟨H.lin1, H.lock1⟩ n1.gmin hd
      (some (startX c x0 s1 f1)) 63
    obtain ⟨z2, e2, -⟩ := dcSolve_regular (c := n2.at f2 (s2.time + s2.tstep)) ho hstd ⟨H.lin2, H.lock2⟩ n2.gmin hd2
      (some (startX c y0 s2 f2)) 63
    obtain ⟨_, p1, q1⟩ := C121_regular_step ho hstd n1 H.lin1 H.lock1 f1 (s1.time + s1.tstep) _ z1 hd e1
    obtain ⟨_, p2, q2⟩ := C121_regular_step ho hstd n2 H.lin2 H.lock2 f2 (s2.time + s2.tstep) _ z2 hd2 e2
    simp only [Option.some.injEq] at p1 p2
    subst p1 p2
    have hx : Lin (n1.mna + gminMat n1.nn n1.gmin) n1.D u w z1 z2 := by
      refine lin_step H.symG H.symD (c := f1.c1) (f := f (s1.time + s1.tstep)) (by rw [add_right_comm]; exact hd) hl ?_ ?_
      · rw [← H.src1, ← q1, add_mulVec]
        simp only [add_assoc]
      · rw [← H.src2, ← q2, hc, H.mna, H.D, H.nn, H.gmin, add_mulVec, hs.time, hs.tstep]
        simp only [add_assoc]
    have hdx : Lin (n1.mna + gminMat n1.nn n1.gmin) n1.D u w (f1.c1 • z1 + f1.c0) (f2.c1 • z2 + f2.c0) := by
      rw [hc]
      exact lin_add (lin_smul _ hx) hl
    rw [e1] at h1
    rw [e2] at h2
    cases a with
    | redo h =>
      simp only [Status.running.injEq] at h1 h2
      subst h1 h2
      exact ⟨hs.time, rfl, hs.iter, hs.buf, hs.points⟩
    | keep h =>
      simp only [Status.running.injEq] at h1 h2
      subst h1 h2
      have hrel : Rel (n1.mna + gminMat n1.nn n1.gmin) n1.D u w ⟨s1.time + s1.tstep, z1, some (f1.c1 • z1 + f1.c0)⟩
          ⟨s2.time + s2.tstep, z2, some (f2.c1 • z2 + f2.c0)⟩ :=
        ⟨by simp only [hs.time, hs.tstep], hx, .inr ⟨_, _, rfl, rfl, hdx⟩⟩
      exact ⟨by simp only [hs.time, hs.tstep], rfl, by simp only [hs.iter], List.forall₂_take _ (.cons hrel hs.buf),
        List.rel_append hs.points (.cons hrel .nil)⟩

/-- the matrix of every pass is regular -/
def RegRun (c : Cfg K) (n : Net K m) (x0 : Fin m → K) (l : List (Ctl K)) (s : St K m) : Prop :=
  ∀ j s', run c n x0 (l.take j) s = .running s' → ∀ g, formula c.meth c.control s'.iter s'.buf s'.tstep = .ok g →
    (n.mna + g.c1 • n.D + gminMat n.nn n.gmin).det ≠ 0

theorem run_sim (H : Nets n1 n2 f u w) (ho : Plain c.o) (hstd : c.o.meth.std = true) {x0 y0 : Fin m → K} (l : List (Ctl K))
    (s1 s2 s1' s2' : St K m) (hs : Sim (n1.mna + gminMat n1.nn n1.gmin) n1.D u w s1 s2) (hr : RegRun c n1 x0 l s1)
    (h1 : run c n1 x0 l s1 = .running s1') (h2 : run c n2 y0 l s2 = .running s2') :
    Sim (n1.mna + gminMat n1.nn n1.gmin) n1.D u w s1' s2' := by
  induction l generalizing s1 s2 with
  | nil =>
    simp only [run, Status.running.injEq] at h1 h2
    subst h1 h2
    exact hs
  | cons a r ih =>
    rw [run] at h1 h2
    split at h1
    · rename_i t1 ht1
      split at h2
      · rename_i t2 ht2
        refine ih t1 t2 (pass_sim H ho hstd hs (hr 0 s1 rfl) ht1 ht2) ?_ h1 h2
        intro j s' hj
        refine hr (j + 1) s' ?_
        rw [List.take_succ_cons, run, ht1]
        exact hj
      · rename_i hne
        exact absurd h2 fun k => hne _ k
    · rename_i hne
      exact absurd h1 fun k => hne _ k

/-- two circuits that differ in their sources only, for analyses with any method -/
structure PairA (sqrt : K → Option K) (c : Cfg K) (nv m : Nat) (A B : List (Elem K)) (sA sB : Sys K) (DA DB : Mat K) (TA TB : K → Vec K)
    (cmin : K) : Prop where
  plain : Op.Plain c.o
  std : c.o.meth.std = true
  pos : 0 < nv
  built : Built sqrt A
  same : A.filterMap bare = B.filterMap bare
  nodesA : ∀ e ∈ A, NodesLt nv e
  nodesB : ∀ e ∈ B, NodesLt nv e
  polesA : ∀ e ∈ A, TwoPole e
  polesB : ∀ e ∈ B, TwoPole e
  genA : generate A nv = .ok sA
  genB : generate B nv = .ok sB
  size : sA.size = m + 1
  dynA : generateD A nv (m + 1) cmin = .ok DA
  dynB : generateD B nv (m + 1) cmin = .ok DB
  srcA : ∀ t, genTt A nv (some t) = .ok (TA t)
  srcB : ∀ t, genTt B nv (some t) = .ok (TB t)

variable {sqrt : K → Option K} {nv : Nat} {A B : List (Elem K)} {sA sB : Sys K} {DA DB : Mat K} {TA TB : K → Vec K} {cmin gmin : K}

/-- the same wave form at two places -/
theorem wavesA (P : PairA sqrt c nv m A B sA sB DA DB TA TB cmin) {f : K → K} {u w : Fin m → K}
    (hA : ∀ t (x : Fin m → K), drive (srcVal (some t)) A nv (Rlc.ext x) = f t * (x ⬝ᵥ u))
    (hB : ∀ t (x : Fin m → K), drive (srcVal (some t)) B nv (Rlc.ext x) = f t * (x ⬝ᵥ w)) (t0 h : K) (l : List (Ctl K)) {s1 s2 : St K m}
    (hr : RegRun c (net m sA DA nv gmin TA) 0 l (start c t0 h 0))
    (r1 : run c (net m sA DA nv gmin TA) 0 l (start c t0 h 0) = .running s1)
    (r2 : run c (net m sB DB nv gmin TB) 0 l (start c t0 h 0) = .running s2) :
    s1.points.length = s2.points.length ∧ ∀ (k : Nat) (e1 e2 : Entry K m), s1.points[k]? = some e1 → s2.points[k]? = some e2 →
      e1.t = e2.t ∧ e1.x ⬝ᵥ w = e2.x ⬝ᵥ u := by
  obtain ⟨hmB, q1, q2⟩ := same_matrices P.pos P.same P.nodesA P.nodesB P.polesA P.polesB P.genA P.genB P.size P.dynA P.dynB
  obtain ⟨y1, y2⟩ := symmetric P.pos P.built P.nodesA P.polesA P.genA P.size (cmin := cmin) (D := DA)
    (by rw [C08_ac_same, P.size]; exact P.dynA)
  have vec : ∀ {b v : Fin m → K} {a : K}, (∀ x : Fin m → K, x ⬝ᵥ b = a * (x ⬝ᵥ v)) → b = a • v := by
    intro b v a hx
    funext i
    have := hx (Pi.single i 1)
    simpa using this
  have H : Nets (net m sA DA nv gmin TA) (net m sB DB nv gmin TB) f u w :=
    { mna := q1
      D := q2
      nn := rfl
      gmin := rfl
      lin1 := rfl
      lin2 := rfl
      lock1 := rfl
      lock2 := rfl
      symG := by
        show (reduce m sA.M + gminMat (nv - 1) gmin).transpose = reduce m sA.M + gminMat (nv - 1) gmin
        rw [Matrix.transpose_add, y1, gminMat, Matrix.diagonal_transpose]
      symD := y2
      src1 := fun t => vec fun x => by rw [← hA, ← weigh P.pos P.nodesA P.polesA P.genA P.size P.srcA]; rfl
      src2 := fun t => vec fun x => by rw [← hB, ← weigh P.pos P.nodesB P.polesB P.genB hmB P.srcB]; rfl }
  have hs := run_sim H P.plain P.std l _ _ s1 s2 ⟨rfl, rfl, rfl, List.forall₂_take _ (.cons ⟨rfl, lin_zero, .inl ⟨rfl, rfl⟩⟩ .nil), .nil⟩ hr r1 r2
  refine ⟨hs.points.length_eq, fun k e1 e2 h1 h2 => ?_⟩
  rcases rel_get hs.points k with ⟨h3, -⟩ | ⟨d1, d2, h3, h4, h5⟩
  · rw [h1] at h3; cases h3
  · rw [h1] at h3
    rw [h2] at h4
    cases h3
    cases h4
    exact ⟨h5.1, lin_dot h5.2.1⟩

/-- C218: reciprocity of transfer impedances for all methods and all steps, if both analyses take the same steps (also when they
refuse points) and the matrix of every pass is regular. -/
theorem C218_any_impedance {circ : List (Elem K)} {ida idb : String} {a b p q : Nat} {u w : Src K}
    (P : PairA sqrt c nv m (circ ++ [.I ida a b u]) (circ ++ [.I idb p q w]) sA sB DA DB TA TB cmin)
    (hq : ∀ e ∈ circ, Silent e) (hf : ∀ t, srcVal (some t) u = srcVal (some t) w) (t0 h : K) (l : List (Ctl K)) {s1 s2 : St K m}
    (hr : RegRun c (net m sA DA nv gmin TA) 0 l (start c t0 h 0))
    (r1 : run c (net m sA DA nv gmin TA) 0 l (start c t0 h 0) = .running s1)
    (r2 : run c (net m sB DB nv gmin TB) 0 l (start c t0 h 0) = .running s2) :
    s1.points.length = s2.points.length ∧ ∀ (k : Nat) (e1 e2 : Entry K m), s1.points[k]? = some e1 → s2.points[k]? = some e2 →
      e1.t = e2.t ∧ Rlc.ext e1.x p - Rlc.ext e1.x q = Rlc.ext e2.x a - Rlc.ext e2.x b := by
  have key := wavesA P (f := fun t => srcVal (some t) u) (u := unit m a - unit m b) (w := unit m p - unit m q)
    (fun t x => ?_) (fun t x => ?_) t0 h l hr r1 r2
  · simpa only [dotProduct_sub, dot_unit] using key
  · rw [drive_silent hq, dotProduct_sub, dot_unit, dot_unit]
    simp [srcNode, brSum, Elem.vde]
  · rw [drive_silent hq, dotProduct_sub, dot_unit, dot_unit, hf]
    simp [srcNode, brSum, Elem.vde]

/-- C218: the same for transfer admittances. -/
theorem C218_any_admittance {circ : List (Elem K)} {ida idb : String} {a b p q : Nat} {u w : Src K} {z z' : Src K}
    (P : PairA sqrt c nv m (circ ++ [.V ida a b u, .V idb p q z]) (circ ++ [.V ida a b z', .V idb p q w]) sA sB DA DB TA TB cmin)
    (hq : ∀ e ∈ circ, Silent e) (hf : ∀ t, srcVal (some t) u = srcVal (some t) w) (hz : ∀ t, srcVal (some t) z = 0)
    (hz' : ∀ t, srcVal (some t) z' = 0) (t0 h : K) (l : List (Ctl K)) {s1 s2 : St K m}
    (hr : RegRun c (net m sA DA nv gmin TA) 0 l (start c t0 h 0))
    (r1 : run c (net m sA DA nv gmin TA) 0 l (start c t0 h 0) = .running s1)
    (r2 : run c (net m sB DB nv gmin TB) 0 l (start c t0 h 0) = .running s2) :
    s1.points.length = s2.points.length ∧ ∀ (k : Nat) (e1 e2 : Entry K m), s1.points[k]? = some e1 → s2.points[k]? = some e2 →
      e1.t = e2.t ∧ Rlc.ext e1.x (nv + (vdes circ).length + 1) = Rlc.ext e2.x (nv + (vdes circ).length) := by
  have key := wavesA P (f := fun t => srcVal (some t) u) (u := -unit m (nv + (vdes circ).length))
    (w := -unit m (nv + (vdes circ).length + 1)) (fun t x => ?_) (fun t x => ?_) t0 h l hr r1 r2
  · simpa only [dotProduct_neg, dot_unit, neg_inj] using key
  · rw [drive_silent hq, dotProduct_neg, dot_unit]
    simp [srcNode, srcBranch, brSum, Elem.vde, hz]
  · rw [drive_silent hq, dotProduct_neg, dot_unit, hf]
    simp [srcNode, srcBranch, brSum, Elem.vde, hz', Nat.add_assoc]

/-- the matrices of implicit Euler and the trapezoidal rule with positive steps -/
theorem regRun_pos {c : Cfg K} (hm : c.meth = .euler ∨ c.meth = .trap) {n : Net K m}
    (hd : ∀ a : K, 0 < a → (n.mna + a • n.D + gminMat n.nn n.gmin).det ≠ 0) (x0 : Fin m → K) (l : List (Ctl K)) (hl : ∀ a ∈ l, 0 < a.step)
    (s : St K m) (hs : 0 < s.tstep) : RegRun c n x0 l s := by
  have key : ∀ (l : List (Ctl K)) (s s' : St K m), 0 < s.tstep → (∀ a ∈ l, 0 < a.step) → run c n x0 l s = .running s' → 0 < s'.tstep := by
    intro l
    induction l with
    | nil => intro s s' h _ k; simp only [run, Status.running.injEq] at k; rw [← k]; exact h
    | cons a r ih =>
      intro s s' h hl k
      rw [run] at k
      split at k
      · rename_i t ht
        exact ih t s' (by rw [pass_step ht]; exact hl a List.mem_cons_self) (fun b hb => hl b (List.mem_cons_of_mem _ hb)) k
      · rename_i hne
        exact absurd k fun q => hne _ q
  intro j s' h g hg
  exact hd _ (formula_pos hm (key _ s s' hs (fun a ha => hl a (List.mem_of_mem_take ha)) h) hg)

/-! ### An example -/

theorem left_mat : reduce 3 (sysQ left 3).M = !![1, 0, 0; 0, 0, 1; 0, 1, 0] := by
  ext i j
  fin_cases i <;> fin_cases j <;> decide +kernel

theorem left_dyn : reduce 3 (dynQ left 3 4) = !![2, -2, 0; -2, 2, 0; 0, 0, -3] := by
  ext i j
  fin_cases i <;> fin_cases j <;> decide +kernel

theorem left_gmin : gminMat (m := 3) 2 (1 / 1000 : ℚ) = !![1 / 1000, 0, 0; 0, 1 / 1000, 0; 0, 0, 0] := by
  ext i j
  fin_cases i <;> fin_cases j <;> decide +kernel

/-- hypotheses of `C218_any_impedance`: trapezoidal rule with step control, steps of different lengths, a refused point -/
example (c : Cfg ℚ) (h1 : c.meth = .trap) (x0 : Fin 3 → ℚ) :
    RegRun c (net 3 (sysQ left 3) (dynQ left 3 4) 3 (1 / 1000) (ttQ left 3)) x0 [.keep 1, .keep 2, .redo (1 / 2), .keep 1] (start c 0 1 x0) := by
  refine regRun_pos (.inr h1) (fun a ha => ?_) x0 _ (by simp [Ctl.step]) _ one_pos
  show (reduce 3 (sysQ left 3).M + a • reduce 3 (dynQ left 3 4) + gminMat 2 (1 / 1000)).det ≠ 0
  rw [left_mat, left_dyn, left_gmin, Matrix.det_fin_three]
  simp
  nlinarith [mul_pos ha ha]

end Verif.TranRecip
