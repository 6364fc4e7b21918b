import Verif.Props.Op
import Verif.Model.Tran

/-!
Properties C159 (transients of linear circuits superpose) and C160 (transients do not depend on the
origin of time).
-/

namespace Verif.Super
open Verif.Op Verif.Tran Matrix

variable {K : Type} [Field K] [LinearOrder K] {m : Nat}

/-- entries of three histories: same time, the third a combination of the others -/
structure Comb (a b : K) (e1 e2 e3 : Entry K m) : Prop where
  t2 : e2.t = e1.t
  t3 : e3.t = e1.t
  x : e3.x = a • e1.x + b • e2.x
  dx : (e1.dx = none ∧ e2.dx = none ∧ e3.dx = none) ∨
    ∃ d1 d2, e1.dx = some d1 ∧ e2.dx = some d2 ∧ e3.dx = some (a • d1 + b • d2)

/-- entry by entry -/
inductive Combs (a b : K) : List (Entry K m) → List (Entry K m) → List (Entry K m) → Prop
  | nil : Combs a b [] [] []
  | cons {e1 e2 e3 l1 l2 l3} : Comb a b e1 e2 e3 → Combs a b l1 l2 l3 → Combs a b (e1 :: l1) (e2 :: l2) (e3 :: l3)

variable {a b : K} {l1 l2 l3 : List (Entry K m)}

omit [LinearOrder K] in
theorem Combs.length (h : Combs a b l1 l2 l3) : l2.length = l1.length ∧ l3.length = l1.length := by
  induction h with
  | nil => exact ⟨rfl, rfl⟩
  | cons _ _ ih => simp [ih.1, ih.2]

omit [LinearOrder K] in
theorem Combs.take (h : Combs a b l1 l2 l3) (n : Nat) : Combs a b (l1.take n) (l2.take n) (l3.take n) := by
  induction h generalizing n with
  | nil => simp only [List.take_nil]; exact .nil
  | cons e _ ih =>
    cases n with
    | zero => simp only [List.take_zero]; exact .nil
    | succ n => simp only [List.take_succ_cons]; exact .cons e (ih n)

omit [LinearOrder K] in
theorem Combs.snoc (h : Combs a b l1 l2 l3) {e1 e2 e3 : Entry K m} (he : Comb a b e1 e2 e3) :
    Combs a b (l1 ++ [e1]) (l2 ++ [e2]) (l3 ++ [e3]) := by
  induction h with
  | nil => exact .cons he .nil
  | cons e _ ih => exact .cons e ih

omit [LinearOrder K] in
theorem Combs.at (h : Combs a b l1 l2 l3) (k : Nat) :
    tAt l2 k = tAt l1 k ∧ tAt l3 k = tAt l1 k ∧ (∀ i, xAt l3 k i = a * xAt l1 k i + b * xAt l2 k i) ∧
      ∀ i, dxAt l3 k i = a * dxAt l1 k i + b * dxAt l2 k i := by
  induction h generalizing k with
  | nil => simp [tAt, xAt, dxAt]
  | cons e _ ih =>
    cases k with
    | succ k => simpa [tAt, xAt, dxAt] using ih k
    | zero =>
      refine ⟨by simp [tAt, e.t2], by simp [tAt, e.t3], fun i => by simp [xAt, e.x], fun i => ?_⟩
      rcases e.dx with ⟨h1, h2, h3⟩ | ⟨d1, d2, h1, h2, h3⟩ <;> simp [dxAt, h1, h2, h3]

omit [LinearOrder K] in
theorem foldl_comb (g u v w : Nat → K) (l : List Nat) (h : ∀ i ∈ l, w i = a * u i + b * v i) (p q : K) :
    l.foldl (fun s i => s + g i * w i) (a * p + b * q) =
      a * l.foldl (fun s i => s + g i * u i) p + b * l.foldl (fun s i => s + g i * v i) q := by
  induction l generalizing p q with
  | nil => rfl
  | cons i l ih =>
    simp only [List.foldl_cons]
    rw [← ih (fun j hj => h j (List.mem_cons_of_mem _ hj)), h i List.mem_cons_self]
    congr 1
    ring

/-- formulas that belong together -/
def Formulas (a b : K) (r1 r2 r3 : Except Circuit.Err (Formula K m)) : Prop :=
  (∃ e, r1 = .error e ∧ r2 = .error e ∧ r3 = .error e) ∨
  ∃ f1 f2 f3, r1 = .ok f1 ∧ r2 = .ok f2 ∧ r3 = .ok f3 ∧ f2.c1 = f1.c1 ∧ f3.c1 = f1.c1 ∧
    f3.c0 = a • f1.c0 + b • f2.c0

omit [LinearOrder K] in
theorem euler_comb (h : Combs a b l1 l2 l3) (step : K) (p : Bool) :
    Formulas a b (eulerDf l1 step p) (eulerDf l2 step p) (eulerDf l3 step p) := by
  unfold eulerDf
  rw [h.length.1, h.length.2]
  split
  · exact .inl ⟨_, rfl, rfl, rfl⟩
  · refine .inr ⟨_, _, _, rfl, rfl, rfl, rfl, rfl, ?_⟩
    funext i
    simp only [DF.implicitEuler, Pi.add_apply, Pi.smul_apply, smul_eq_mul, (h.at 0).2.2.1 i]
    ring

omit [LinearOrder K] in
theorem trap_comb (h : Combs a b l1 l2 l3) (step : K) (p : Bool) :
    Formulas a b (trapDf l1 step p) (trapDf l2 step p) (trapDf l3 step p) := by
  cases h with
  | nil => exact .inl ⟨_, rfl, rfl, rfl⟩
  | @cons e1 e2 e3 t1 t2 t3 e t =>
    have hd : e2.dx.isNone = e1.dx.isNone ∧ e3.dx.isNone = e1.dx.isNone := by
      rcases e.dx with ⟨h1, h2, h3⟩ | ⟨d1, d2, h1, h2, h3⟩ <;> simp [h1, h2, h3]
    have hc := (Combs.cons e t)
    unfold trapDf
    simp only [hd.1, hd.2, hc.length.1, hc.length.2]
    split
    · exact .inl ⟨_, rfl, rfl, rfl⟩
    split
    · exact .inl ⟨_, rfl, rfl, rfl⟩
    split
    · exact .inl ⟨_, rfl, rfl, rfl⟩
    · refine .inr ⟨_, _, _, rfl, rfl, rfl, rfl, rfl, ?_⟩
      funext i
      simp only [DF.trap, Pi.add_apply, Pi.smul_apply, smul_eq_mul, (hc.at 0).2.2.1 i, (hc.at 0).2.2.2 i]
      ring

omit [LinearOrder K] in
theorem gear_comb (h : Combs a b l1 l2 l3) (n : Nat) (step : K) (p : Bool) :
    Formulas a b (gearDf n l1 step p) (gearDf n l2 step p) (gearDf n l3 step p) := by
  have t2 : tAt l2 = tAt l1 := funext fun k => (h.at k).1
  have t3 : tAt l3 = tAt l1 := funext fun k => (h.at k).2.1
  unfold gearDf
  rw [h.length.1, h.length.2, t2, t3]
  split
  · exact .inl ⟨_, rfl, rfl, rfl⟩
  · refine .inr ⟨_, _, _, rfl, rfl, rfl, rfl, rfl, ?_⟩
    funext i
    simp only [DF.gear, Pi.add_apply, Pi.smul_apply, smul_eq_mul]
    have := foldl_comb (a := a) (b := b) (fun j => DF.gearGamma n (DF.gearS (tAt l1) step) (j + 1)) (fun k => xAt l1 k i)
      (fun k => xAt l2 k i) (fun k => xAt l3 k i) (List.range n) (fun k _ => (h.at k).2.2.1 i) 0 0
    simpa using this

omit [LinearOrder K] in
theorem formula_comb (h : Combs a b l1 l2 l3) (mt : Meth) (control : Bool) (iter : Nat) (step : K) :
    Formulas a b (formula mt control iter l1 step) (formula mt control iter l2 step) (formula mt control iter l3 step) := by
  unfold formula
  simp only
  split
  · cases h with
    | nil => exact .inl ⟨_, rfl, rfl, rfl⟩
    | cons e t => exact euler_comb (.cons e .nil) step _
  · cases mt with
    | euler => exact euler_comb h step _
    | trap => exact trap_comb h step _
    | gear n => exact gear_comb h n step _

variable [IsStrictOrderedRing K]

/-- the solver, on three linear circuits with the same matrix -/
theorem dcSolve_comb {o : OOpts K} (ho : Op.Plain o) (ha : AllMeth o) {c1 c2 c3 : Circ K m} (h1 : Linear c1) (h2 : Linear c2)
    (h3 : Linear c3) (hM : c2.mna = c1.mna ∧ c3.mna = c1.mna) (hn : c2.nn = c1.nn ∧ c3.nn = c1.nn)
    (hN : c3.N + c3.Ntran = a • (c1.N + c1.Ntran) + b • (c2.N + c2.Ntran)) (g : K)
    (x1 x2 x3 : Option (Fin m → K)) :
    (dcSolve o c1 g x1 = .failed ∧ dcSolve o c2 g x2 = .failed ∧ dcSolve o c3 g x3 = .failed) ∨
    ∃ z1 z2, dcSolve o c1 g x1 = .solved z1 ∧ dcSolve o c2 g x2 = .solved z2 ∧ dcSolve o c3 g x3 = .solved (a • z1 + b • z2) := by
  have key : ∀ (A : Matrix (Fin m) (Fin m) K) (z1 z2 z3 : Fin m → K), A.det ≠ 0 → A *ᵥ z1 + (c1.N + c1.Ntran) = 0 →
      A *ᵥ z2 + (c2.N + c2.Ntran) = 0 → A *ᵥ z3 + (c3.N + c3.Ntran) = 0 → z3 = a • z1 + b • z2 := by
    intro A z1 z2 z3 hA e1 e2 e3
    refine Newton.C15_unique A _ _ _ hA e3 ?_
    rw [hN, mulVec_add, mulVec_smul, mulVec_smul]
    have : a • (A *ᵥ z1 + (c1.N + c1.Ntran)) + b • (A *ᵥ z2 + (c2.N + c2.Ntran)) = 0 := by rw [e1, e2]; simp
    rw [← this]
    simp only [smul_add]
    abel
  have s2 : ∀ j, stepMat c2 j = stepMat c1 j := fun j => by rw [stepMat, stepMat, hM.1, hn.1]
  have s3 : ∀ j, stepMat c3 j = stepMat c1 j := fun j => by rw [stepMat, stepMat, hM.2, hn.2]
  have m2 : c2.mna + gminMat c2.nn g = c1.mna + gminMat c1.nn g := by rw [hM.1, hn.1]
  have m3 : c3.mna + gminMat c3.nn g = c1.mna + gminMat c1.nn g := by rw [hM.2, hn.2]
  by_cases hd : (c1.mna + gminMat c1.nn g).det = 0
  · obtain ⟨p1, q1⟩ := dcSolve_singular ho ha h1 g hd x1
    obtain ⟨p2, q2⟩ := dcSolve_singular ho ha h2 g (by rw [m2]; exact hd) x2
    obtain ⟨p3, q3⟩ := dcSolve_singular ho ha h3 g (by rw [m3]; exact hd) x3
    simp only [s2, s3] at p2 p3 q2 q3
    by_cases hs : ∀ j, j ≤ 9 → (stepMat c1 j).det ≠ 0
    · obtain ⟨z1, d1, e1⟩ := p1 hs
      obtain ⟨z2, d2, e2⟩ := p2 hs
      obtain ⟨z3, d3, e3⟩ := p3 hs
      refine .inr ⟨z1, z2, d1, d2, ?_⟩
      rw [d3, key _ z1 z2 z3 (hs 9 (le_refl _)) e1 e2 e3]
    · push Not at hs
      exact .inl ⟨q1 hs, q2 hs, q3 hs⟩
  · obtain ⟨z1, d1, e1⟩ := dcSolve_regular ho ha.std h1 g hd x1 63
    obtain ⟨z2, d2, e2⟩ := dcSolve_regular ho ha.std h2 g (by rw [m2]; exact hd) x2 63
    obtain ⟨z3, d3, e3⟩ := dcSolve_regular ho ha.std h3 g (by rw [m3]; exact hd) x3 63
    rw [m2] at e2
    rw [m3] at e3
    refine .inr ⟨z1, z2, d1, d2, ?_⟩
    rw [d3, key _ z1 z2 z3 hd e1 e2 e3]

/-- states of three analyses that belong together -/
structure CombSt (a b : K) (s1 s2 s3 : St K m) : Prop where
  time : s2.time = s1.time ∧ s3.time = s1.time
  tstep : s2.tstep = s1.tstep ∧ s3.tstep = s1.tstep
  iter : s2.iter = s1.iter ∧ s3.iter = s1.iter
  buf : Combs a b s1.buf s2.buf s3.buf
  points : Combs a b s1.points s2.points s3.points

/-- how three analyses stand -/
def Same (a b : K) (r1 r2 r3 : Status K m) : Prop :=
  (∃ s1 s2 s3, r1 = .running s1 ∧ r2 = .running s2 ∧ r3 = .running s3 ∧ CombSt a b s1 s2 s3) ∨
  (∃ s1 s2 s3, r1 = .halted s1 ∧ r2 = .halted s2 ∧ r3 = .halted s3 ∧ CombSt a b s1 s2 s3) ∨
  (∃ s1 s2 s3, r1 = .raised s1 ∧ r2 = .raised s2 ∧ r3 = .raised s3 ∧ CombSt a b s1 s2 s3)

/-- a circuit without non-linear elements -/
def Lin (n : Net K m) : Prop := n.nonlinear = false ∧ n.locked = []

/-- the same circuit, with the combination of the sources -/
structure Sources (a b : K) (n1 n2 n3 : Net K m) : Prop where
  mna : n2.mna = n1.mna ∧ n3.mna = n1.mna
  D : n2.D = n1.D ∧ n3.D = n1.D
  nn : n2.nn = n1.nn ∧ n3.nn = n1.nn
  gmin : n2.gmin = n1.gmin ∧ n3.gmin = n1.gmin
  src : ∀ t, n3.N + n3.Tt t = a • (n1.N + n1.Tt t) + b • (n2.N + n2.Tt t)

theorem pass_comb {c : Cfg K} (ho : Op.Plain c.o) (ha : AllMeth c.o) {n1 n2 n3 : Net K m} (h1 : Lin n1) (h2 : Lin n2)
    (h3 : Lin n3) (hs : Sources a b n1 n2 n3) {s1 s2 s3 : St K m} (h : CombSt a b s1 s2 s3) (x1 x2 x3 : Fin m → K)
    (ctl : Ctl K) : Same a b (pass c n1 x1 s1 ctl) (pass c n2 x2 s2 ctl) (pass c n3 x3 s3 ctl) := by
  unfold pass
  rw [h.iter.1, h.iter.2, h.tstep.1, h.tstep.2, h.time.1, h.time.2, hs.gmin.1, hs.gmin.2]
  rcases formula_comb h.buf c.meth c.control s1.iter s1.tstep with ⟨e, e1, e2, e3⟩ | ⟨f1, f2, f3, e1, e2, e3, k2, k3, k0⟩
  · rw [e1, e2, e3]
    exact .inr (.inr ⟨_, _, _, rfl, rfl, rfl, h⟩)
  · rw [e1, e2, e3]
    simp only
    have hN : (n3.at f3 (s1.time + s1.tstep)).N + (n3.at f3 (s1.time + s1.tstep)).Ntran =
        a • ((n1.at f1 (s1.time + s1.tstep)).N + (n1.at f1 (s1.time + s1.tstep)).Ntran) +
        b • ((n2.at f2 (s1.time + s1.tstep)).N + (n2.at f2 (s1.time + s1.tstep)).Ntran) := by
      simp only [Net.at]
      rw [hs.src, k0, hs.D.1, hs.D.2, mulVec_add, mulVec_smul, mulVec_smul]
      simp only [smul_add]
      abel
    rcases dcSolve_comb ho ha (c1 := n1.at f1 (s1.time + s1.tstep)) (c2 := n2.at f2 (s1.time + s1.tstep))
      (c3 := n3.at f3 (s1.time + s1.tstep)) ⟨h1.1, h1.2⟩ ⟨h2.1, h2.2⟩ ⟨h3.1, h3.2⟩
      (by simp only [Net.at]; rw [k2, k3, hs.mna.1, hs.mna.2, hs.D.1, hs.D.2]; exact ⟨rfl, rfl⟩) hs.nn hN n1.gmin
      (some (startX c x1 s1 f1)) (some (startX c x2 s2 f2)) (some (startX c x3 s3 f3)) with ⟨d1, d2, d3⟩ | ⟨z1, z2, d1, d2, d3⟩
    · rw [d1, d2, d3]
      simp only
      split
      · cases ctl with
        | redo t => exact .inl ⟨_, _, _, rfl, rfl, rfl, ⟨rfl, rfl⟩, ⟨rfl, rfl⟩, ⟨rfl, rfl⟩, h.buf, h.points⟩
        | keep t => exact .inl ⟨_, _, _, rfl, rfl, rfl, ⟨rfl, rfl⟩, ⟨rfl, rfl⟩, ⟨rfl, rfl⟩, h.buf, h.points⟩
      · exact .inr (.inl ⟨_, _, _, rfl, rfl, rfl, h⟩)
    · rw [d1, d2, d3]
      simp only
      cases ctl with
      | redo t => exact .inl ⟨_, _, _, rfl, rfl, rfl, ⟨rfl, rfl⟩, ⟨rfl, rfl⟩, ⟨rfl, rfl⟩, h.buf, h.points⟩
      | keep t =>
        have he : Comb a b (⟨s1.time + s1.tstep, z1, some (f1.c1 • z1 + f1.c0)⟩ : Entry K m)
            ⟨s1.time + s1.tstep, z2, some (f2.c1 • z2 + f2.c0)⟩
            ⟨s1.time + s1.tstep, a • z1 + b • z2, some (f3.c1 • (a • z1 + b • z2) + f3.c0)⟩ := by
          refine ⟨rfl, rfl, rfl, .inr ⟨_, _, rfl, rfl, ?_⟩⟩
          rw [k2, k3, k0]
          simp only [Option.some.injEq]
          funext i
          simp only [Pi.add_apply, Pi.smul_apply, smul_eq_mul]
          ring
        exact .inl ⟨_, _, _, rfl, rfl, rfl, ⟨rfl, rfl⟩, ⟨rfl, rfl⟩, ⟨by simp, by simp⟩, (Combs.cons he h.buf).take _,
          h.points.snoc he⟩

theorem run_comb {c : Cfg K} (ho : Op.Plain c.o) (ha : AllMeth c.o) {n1 n2 n3 : Net K m} (h1 : Lin n1) (h2 : Lin n2)
    (h3 : Lin n3) (hs : Sources a b n1 n2 n3) (x1 x2 x3 : Fin m → K) (l : List (Ctl K)) {s1 s2 s3 : St K m}
    (h : CombSt a b s1 s2 s3) : Same a b (run c n1 x1 l s1) (run c n2 x2 l s2) (run c n3 x3 l s3) := by
  induction l generalizing s1 s2 s3 with
  | nil => exact .inl ⟨_, _, _, rfl, rfl, rfl, h⟩
  | cons t l ih =>
    unfold run
    rcases pass_comb ho ha h1 h2 h3 hs h x1 x2 x3 t with ⟨t1, t2, t3, e1, e2, e3, h'⟩ | ⟨t1, t2, t3, e1, e2, e3, h'⟩ | ⟨t1, t2, t3, e1, e2, e3, h'⟩
    · rw [e1, e2, e3]; exact ih h'
    · rw [e1, e2, e3]; exact .inr (.inl ⟨_, _, _, rfl, rfl, rfl, h'⟩)
    · rw [e1, e2, e3]; exact .inr (.inr ⟨_, _, _, rfl, rfl, rfl, h'⟩)

/-- C159: three transient analyses of one linear circuit with the same method and steps, the sources and the
starting point of the third being a combination of those of the others, at all times: they go equally far, and
every point of the third is the same combination of the points of the others, at the same time. -/
theorem C159_transient {c : Cfg K} (ho : Op.Plain c.o) (ha : AllMeth c.o) {n1 n2 n3 : Net K m} (h1 : Lin n1) (h2 : Lin n2)
    (h3 : Lin n3) (hs : Sources a b n1 n2 n3) (tstart step : K) (x1 x2 : Fin m → K) (l : List (Ctl K)) :
    let p1 := (run c n1 x1 l (start c tstart step x1)).st.points
    let p2 := (run c n2 x2 l (start c tstart step x2)).st.points
    let p3 := (run c n3 (a • x1 + b • x2) l (start c tstart step (a • x1 + b • x2))).st.points
    p2.length = p1.length ∧ p3.length = p1.length ∧ ∀ (k : Nat) (e1 e2 e3 : Entry K m), p1[k]? = some e1 → p2[k]? = some e2 → p3[k]? = some e3 →
      e2.t = e1.t ∧ e3.t = e1.t ∧ ∀ i, e3.x i = a * e1.x i + b * e2.x i := by
  have h0 : CombSt a b (start c tstart step x1) (start c tstart step x2) (start c tstart step (a • x1 + b • x2)) := by
    refine ⟨⟨rfl, rfl⟩, ⟨rfl, rfl⟩, ⟨rfl, rfl⟩, ?_, .nil⟩
    have h : Combs a b [(⟨tstart, x1, none⟩ : Entry K m)] [⟨tstart, x2, none⟩] [⟨tstart, a • x1 + b • x2, none⟩] :=
      .cons ⟨rfl, rfl, rfl, .inl ⟨rfl, rfl, rfl⟩⟩ .nil
    exact h.take _
  have key : Combs a b (run c n1 x1 l (start c tstart step x1)).st.points (run c n2 x2 l (start c tstart step x2)).st.points
      (run c n3 (a • x1 + b • x2) l (start c tstart step (a • x1 + b • x2))).st.points := by
    rcases run_comb ho ha h1 h2 h3 hs x1 x2 (a • x1 + b • x2) l h0 with
      ⟨t1, t2, t3, e1, e2, e3, h'⟩ | ⟨t1, t2, t3, e1, e2, e3, h'⟩ | ⟨t1, t2, t3, e1, e2, e3, h'⟩
    all_goals rw [e1, e2, e3]; exact h'.points
  intro p1 p2 p3
  refine ⟨key.length.1, key.length.2, ?_⟩
  have at' : ∀ {l1 l2 l3 : List (Entry K m)}, Combs a b l1 l2 l3 → ∀ (k : Nat) (e1 e2 e3 : Entry K m), l1[k]? = some e1 → l2[k]? = some e2 →
      l3[k]? = some e3 → e2.t = e1.t ∧ e3.t = e1.t ∧ ∀ i, e3.x i = a * e1.x i + b * e2.x i := by
    intro l1 l2 l3 h
    induction h with
    | nil => intro k e1 e2 e3 h; simp at h
    | cons e _ ih =>
      intro k e1 e2 e3 h1 h2 h3
      cases k with
      | succ k => exact ih k e1 e2 e3 (by simpa using h1) (by simpa using h2) (by simpa using h3)
      | zero =>
        simp only [List.getElem?_cons_zero, Option.some.injEq] at h1 h2 h3
        subst h1 h2 h3
        exact ⟨e.t2, e.t3, fun i => by rw [e.x]; simp⟩
  exact at' key

/-! ### C160: the origin of time -/

omit [IsStrictOrderedRing K]
variable {τ : K}

/-- an entry of a history, later by `τ` -/
def later (τ : K) (e : Entry K m) : Entry K m := { e with t := e.t + τ }

omit [LinearOrder K] in
theorem xAt_later (l : List (Entry K m)) : xAt (l.map (later τ)) = xAt l := by
  funext k i
  simp only [xAt, List.getElem?_map]
  cases l[k]? <;> rfl

omit [LinearOrder K] in
theorem dxAt_later (l : List (Entry K m)) : dxAt (l.map (later τ)) = dxAt l := by
  funext k i
  simp only [dxAt, List.getElem?_map]
  cases l[k]? <;> rfl

omit [LinearOrder K] in
theorem tAt_later (l : List (Entry K m)) (k : Nat) (hk : k < l.length) : tAt (l.map (later τ)) k = tAt l k + τ := by
  simp [tAt, hk, later]

omit [LinearOrder K] in
theorem euler_later (l : List (Entry K m)) (step : K) (p : Bool) : eulerDf (l.map (later τ)) step p = eulerDf l step p := by
  unfold eulerDf
  simp only [List.length_map, xAt_later]
  by_cases h0 : l.length = 0
  · rw [if_pos h0, if_pos h0]
  rw [if_neg h0, if_neg h0]
  by_cases h1 : l.length > 1
  · simp only [DF.implicitEuler, tAt_later l 0 (by omega), tAt_later l 1 h1]
    have e : tAt l 0 + τ - (tAt l 1 + τ) = tAt l 0 - tAt l 1 := by ring
    rw [e]
  · simp [h1, DF.implicitEuler]

omit [LinearOrder K] in
theorem trap_later (l : List (Entry K m)) (step : K) (p : Bool) : trapDf (l.map (later τ)) step p = trapDf l step p := by
  cases l with
  | nil => rfl
  | cons e l =>
    have hx := xAt_later (τ := τ) (e :: l)
    have hdx := dxAt_later (τ := τ) (e :: l)
    rw [List.map_cons] at hx hdx ⊢
    simp only [later] at hx hdx ⊢
    unfold trapDf
    simp only [hx, hdx, List.length_cons, List.length_map]
    split
    · rfl
    split
    · rfl
    split
    · rfl
    rename_i h3
    cases p with
    | false => simp [DF.trap]
    | true =>
      have hl : 3 ≤ l.length + 1 := by simpa using h3
      have ht : ∀ k, k < 3 → tAt ({ t := e.t + τ, x := e.x, dx := e.dx } :: l.map (later τ)) k = tAt (e :: l) k + τ :=
        fun k hk => tAt_later (τ := τ) (e :: l) k (by simp; omega)
      have hA : DF.trapA (tAt ({ t := e.t + τ, x := e.x, dx := e.dx } :: l.map (later τ))) = DF.trapA (tAt (e :: l)) := by
        funext row col
        unfold DF.trapA
        rw [ht row row.isLt, ht 0 (by norm_num)]
        congr 2
        ring
      simp only [DF.trap, hA]

omit [LinearOrder K] in
theorem foldl_same {β γ : Type} (f g : β → γ → β) (l : List γ) (h : ∀ x ∈ l, ∀ s, f s x = g s x) (s : β) :
    l.foldl f s = l.foldl g s := by
  induction l generalizing s with
  | nil => rfl
  | cons x l ih =>
    simp only [List.foldl_cons]
    rw [h x List.mem_cons_self, ih fun y hy => h y (List.mem_cons_of_mem _ hy)]

omit [LinearOrder K] in
theorem gear_later (n : Nat) (l : List (Entry K m)) (step : K) (p : Bool) :
    gearDf n (l.map (later τ)) step p = gearDf n l step p := by
  unfold gearDf
  simp only [List.length_map, xAt_later]
  by_cases hl : l.length < n + 1
  · rw [if_pos hl, if_pos hl]
  rw [if_neg hl, if_neg hl]
  have hS : ∀ k, k ≤ n + 1 → DF.gearS (tAt (l.map (later τ))) step k = DF.gearS (tAt l) step k := by
    intro k hk
    unfold DF.gearS
    split
    · rfl
    · rw [tAt_later l 0 (by omega), tAt_later l (k - 1) (by omega)]
      ring
  have hA : ∀ k, k ≤ n + 1 → DF.gearAlpha n (DF.gearS (tAt (l.map (later τ))) step) k = DF.gearAlpha n (DF.gearS (tAt l) step) k := by
    intro k hk
    unfold DF.gearAlpha
    refine foldl_same _ _ _ (fun j hj s => ?_) _
    have := List.mem_range.1 hj
    unfold DF.gearE
    rw [hS k hk, hS (j + 1) (by omega)]
  have hG : ∀ k, k ≤ n + 1 → DF.gearGamma n (DF.gearS (tAt (l.map (later τ))) step) k = DF.gearGamma n (DF.gearS (tAt l) step) k := by
    intro k hk
    unfold DF.gearGamma
    rw [hA k hk, hS k hk, hS (n + 1) (le_refl _)]
  have hG0 : DF.gearGamma0 n (DF.gearS (tAt (l.map (later τ))) step) = DF.gearGamma0 n (DF.gearS (tAt l) step) := by
    unfold DF.gearGamma0
    refine foldl_same _ _ _ (fun j hj s => ?_) _
    have := List.mem_range.1 hj
    rw [hG (j + 1) (by omega)]
  have hc0 : ∀ x : Nat → K, (DF.gear n (tAt (l.map (later τ))) x step).c0 = (DF.gear n (tAt l) x step).c0 := by
    intro x
    simp only [DF.gear]
    refine foldl_same _ _ _ (fun j hj s => ?_) _
    have := List.mem_range.1 hj
    rw [hG (j + 1) (by omega)]
  have hpred : ∀ x : Nat → K, (DF.gear n (tAt (l.map (later τ))) x step).pred = (DF.gear n (tAt l) x step).pred := by
    intro x
    simp only [DF.gear]
    refine foldl_same _ _ _ (fun j hj s => ?_) _
    have := List.mem_range.1 hj
    rw [hA (j + 1) (by omega)]
  simp only [hG0, hc0, hpred]

omit [LinearOrder K] in
theorem formula_later (mt : Meth) (control : Bool) (iter : Nat) (l : List (Entry K m)) (step : K) :
    formula mt control iter (l.map (later τ)) step = formula mt control iter l step := by
  unfold formula
  simp only
  split
  · cases l with
    | nil => rfl
    | cons e l => exact euler_later [e] step _
  · cases mt with
    | euler => exact euler_later l step _
    | trap => exact trap_later l step _
    | gear n => exact gear_later n l step _

/-- a state, later by `τ` -/
def laterSt (τ : K) (s : St K m) : St K m :=
  { s with time := s.time + τ, buf := s.buf.map (later τ), points := s.points.map (later τ) }

def laterStatus (τ : K) : Status K m → Status K m
  | .running s => .running (laterSt τ s)
  | .halted s => .halted (laterSt τ s)
  | .raised s => .raised (laterSt τ s)

theorem pass_later (c : Cfg K) (n : Net K m) (f : K → Fin m → K) (hf : ∀ t, f (t + τ) = n.Tt t) (x0 : Fin m → K) (s : St K m)
    (ctl : Ctl K) : pass c { n with Tt := f } x0 (laterSt τ s) ctl = laterStatus τ (pass c n x0 s ctl) := by
  unfold pass
  simp only [laterSt, formula_later]
  cases formula c.meth c.control s.iter s.buf s.tstep with
  | error e => rfl
  | ok g =>
    have e : s.time + τ + s.tstep = s.time + s.tstep + τ := by ring
    have hat : Net.at { n with Tt := f } g (s.time + s.tstep + τ) = n.at g (s.time + s.tstep) := by
      simp only [Net.at, hf]
    simp only [e, hat, startX]
    cases dcSolve c.o (n.at g (s.time + s.tstep)) n.gmin
        (some (match if c.control = true then g.pred else none with | some p => p | none => s.x.getD x0)) with
    | solved z =>
      cases ctl with
      | redo t => rfl
      | keep t => simp [laterStatus, laterSt, later]
    | failed =>
      simp only
      split
      · cases ctl <;> rfl
      · rfl
    | raised => rfl
    | outOfFuel => rfl

/-- C160: a transient analysis that starts later by `τ`, with sources that do the same later by `τ`, and is given the
same steps, does the same later by `τ`: same values, same derivatives, same end. Non-linear circuits included. -/
theorem C160_later (c : Cfg K) (n : Net K m) (f : K → Fin m → K) (hf : ∀ t, f (t + τ) = n.Tt t) (tstart step : K)
    (x0 : Fin m → K) (l : List (Ctl K)) :
    run c { n with Tt := f } x0 l (start c (tstart + τ) step x0) = laterStatus τ (run c n x0 l (start c tstart step x0)) := by
  have key : ∀ s : St K m, run c { n with Tt := f } x0 l (laterSt τ s) = laterStatus τ (run c n x0 l s) := by
    induction l with
    | nil => intro s; rfl
    | cons a r ih =>
      intro s
      unfold run
      rw [pass_later c n f hf]
      cases pass c n x0 s a with
      | running t => exact ih t
      | halted t => rfl
      | raised t => rfl
  rw [← key]
  congr 1
  simp [start, laterSt, later]

/-- C160: and a circuit without time dependent sources does not know at which time it is. -/
theorem C160_autonomous (c : Cfg K) (n : Net K m) (v : Fin m → K) (hn : ∀ t, n.Tt t = v) (tstart step : K)
    (x0 : Fin m → K) (l : List (Ctl K)) :
    (run c n x0 l (start c (tstart + τ) step x0)).st.points =
      (run c n x0 l (start c tstart step x0)).st.points.map fun e => ⟨e.t + τ, e.x, e.dx⟩ := by
  have h := C160_later (τ := τ) c n n.Tt (fun t => by rw [hn, hn]) tstart step x0 l
  rw [show ({ n with Tt := n.Tt } : Net K m) = n from rfl] at h
  rw [h]
  cases run c n x0 l (start c tstart step x0) <;> rfl

/-! ### Examples -/

/-- 1 ohm and 1 F in parallel, fed with a constant current and one that grows with time -/
def rc (i0 i1 : ℚ) : Net ℚ 1 := ⟨!![1], !![1], ![-i0], fun t => ![-i1 * t], 1, 1 / 10 ^ 12, false, fun _ => 0, fun _ => 0, []⟩

example (l : List (Ctl ℚ)) :
    (run ⟨dflt, .trap, true, 3⟩ (rc 2 3) ((2 : ℚ) • ![5] + (3 : ℚ) • ![7]) l
      (start ⟨dflt, .trap, true, 3⟩ 0 1 ((2 : ℚ) • ![5] + (3 : ℚ) • ![7]))).st.points.length =
    (run ⟨dflt, .trap, true, 3⟩ (rc 1 0) ![5] l (start ⟨dflt, .trap, true, 3⟩ 0 1 ![5])).st.points.length := by
  refine (C159_transient (a := 2) (b := 3) (c := ⟨dflt, .trap, true, 3⟩) ⟨rfl, by decide⟩ ⟨rfl, rfl, rfl, by decide⟩
    (n1 := rc 1 0) (n2 := rc 0 1) (n3 := rc 2 3) ⟨rfl, rfl⟩ ⟨rfl, rfl⟩ ⟨rfl, rfl⟩
    ⟨⟨rfl, rfl⟩, ⟨rfl, rfl⟩, ⟨rfl, rfl⟩, ⟨rfl, rfl⟩, fun t => ?_⟩ 0 1 ![5] ![7] l).2.1
  funext i
  fin_cases i
  simp [rc]

example (l : List (Ctl ℚ)) :
    run ⟨dflt, .gear 2, true, 4⟩ { rc 1 1 with Tt := fun t => ![-1 * (t - 10)] } ![0] l (start ⟨dflt, .gear 2, true, 4⟩ (0 + 10) 1 ![0]) =
      laterStatus 10 (run ⟨dflt, .gear 2, true, 4⟩ (rc 1 1) ![0] l (start ⟨dflt, .gear 2, true, 4⟩ 0 1 ![0])) :=
  C160_later _ (rc 1 1) _ (fun t => by simp [rc]) 0 1 ![0] l

end Verif.Super
