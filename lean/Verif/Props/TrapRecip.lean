import Verif.Props.TranRecip

/-!
Property C218, continued: reciprocity of transients with the trapezoidal rule, whose first step is one of implicit Euler
(transient.py:273-281, 323-333).
-/

namespace Verif.TranRecip
open Verif.Circuit Verif.Mna Verif.Dyn Verif.Op Verif.Tran Verif.Rlc Verif.Recip Verif.Conserve Matrix

variable {K : Type} [Field K] [LinearOrder K] [IsStrictOrderedRing K] {m : Nat}

/-! ### Sequences -/

/-- derivatives as the code computes them with a fixed step -/
def Deriv (h : K) (X dX : Nat → Fin m → K) (N : Nat) : Prop :=
  ∀ k < N, dX (k + 1) = if k = 0 then (1 / h) • (X 1 - X 0) else (2 / h) • (X (k + 1) - X k) - dX k

section
omit [LinearOrder K] [IsStrictOrderedRing K]

/-- the response to a wave form `f` as a matrix -/
noncomputable def resps (G D : Matrix (Fin m) (Fin m) K) (h : K) (f : Nat → K) : Nat → Matrix (Fin m) (Fin m) K
  | 0 => 0
  | 1 => f 1 • (G + (1 / h) • D)⁻¹
  | k + 2 => (G + (2 / h) • D)⁻¹ * (((2 / h) • D - G) * resps G D h f (k + 1)) + (f (k + 1) + f (k + 2)) • (G + (2 / h) • D)⁻¹

theorem resps_eq {G D : Matrix (Fin m) (Fin m) K} {h : K} (hd1 : (G + (1 / h) • D).det ≠ 0) (hd2 : (G + (2 / h) • D).det ≠ 0)
    {f : Nat → K} {X dX : Nat → Fin m → K} {u : Fin m → K} {N : Nat} (x0 : X 0 = 0) (hdx : Deriv h X dX N)
    (hX : ∀ k < N, G *ᵥ X (k + 1) + D *ᵥ dX (k + 1) + f (k + 1) • u = 0) : ∀ k ≤ N, X k = -(resps G D h f k *ᵥ u)
  | 0, _ => by simp [resps, x0]
  | 1, hk => by
    have h1 := hX 0 (by omega)
    have h2 := hdx 0 (by omega)
    rw [if_pos rfl, x0, sub_zero] at h2
    rw [zero_add, h2, mulVec_smul, ← smul_mulVec, ← add_mulVec] at h1
    have h3 := congrArg ((G + (1 / h) • D)⁻¹ *ᵥ ·) (eq_neg_of_add_eq_zero_left h1)
    simp only [mulVec_mulVec, Matrix.nonsing_inv_mul _ (isUnit_iff_ne_zero.2 hd1), one_mulVec] at h3
    rw [h3, resps, mulVec_neg, mulVec_smul, smul_mulVec]
  | k + 2, hk => by
    have ih := resps_eq hd1 hd2 x0 hdx hX (k + 1) (by omega)
    have h0 := hX k (by omega)
    have h1 := hX (k + 1) (by omega)
    have h2 := hdx (k + 1) (by omega)
    rw [if_neg (by omega)] at h2
    rw [h2, mulVec_sub, mulVec_smul, mulVec_sub] at h1
    have h3 : (G + (2 / h) • D) *ᵥ X (k + 2) = ((2 / h) • D - G) *ᵥ X (k + 1) - (f (k + 1) + f (k + 2)) • u := by
      rw [add_mulVec, sub_mulVec, smul_mulVec, smul_mulVec, add_smul]
      have := congrArg₂ (· + ·) h0 h1
      simp only [add_zero] at this
      rw [← sub_eq_zero, ← this, smul_sub]
      abel
    have h4 := congrArg ((G + (2 / h) • D)⁻¹ *ᵥ ·) h3
    simp only [mulVec_mulVec, Matrix.nonsing_inv_mul _ (isUnit_iff_ne_zero.2 hd2), one_mulVec] at h4
    rw [h4, ih, resps, mulVec_sub, mulVec_neg, mulVec_neg, add_mulVec, mulVec_smul, smul_mulVec, ← mulVec_mulVec, ← mulVec_mulVec]
    abel

theorem resps_symm {G D : Matrix (Fin m) (Fin m) K} {h : K} (hG : G.transpose = G) (hD : D.transpose = D)
    (hd1 : (G + (1 / h) • D).det ≠ 0) (hd2 : (G + (2 / h) • D).det ≠ 0) (f : Nat → K) (k : Nat) :
    (resps G D h f k).transpose = resps G D h f k := by
  obtain ⟨A1, hA1⟩ : ∃ A1, A1 = G + (1 / h) • D := ⟨_, rfl⟩
  obtain ⟨A, hA⟩ : ∃ A, A = G + (2 / h) • D := ⟨_, rfl⟩
  obtain ⟨B, hB⟩ : ∃ B, B = (2 / h) • D - G := ⟨_, rfl⟩
  have eD : (2 / h) • D = (2 : K) • (A1 - G) := by
    rw [hA1, add_sub_cancel_left, smul_smul, mul_one_div]
  have eA : A = A1 + A1 - G := by rw [hA, eD, two_smul]; abel
  have eB : B = A1 + A1 - G - G - G := by rw [hB, eD, two_smul]; abel
  have tA1 : A1.transpose = A1 := by rw [hA1, transpose_add, transpose_smul, hG, hD]
  have tA : A.transpose = A := by rw [hA, transpose_add, transpose_smul, hG, hD]
  have tB : B.transpose = B := by rw [hB, transpose_sub, transpose_smul, hG, hD]
  rw [← hA1] at hd1
  rw [← hA] at hd2
  have l1 : A1⁻¹ * A1 = 1 := Matrix.nonsing_inv_mul _ (isUnit_iff_ne_zero.2 hd1)
  have r1 : A1 * A1⁻¹ = 1 := Matrix.mul_nonsing_inv _ (isUnit_iff_ne_zero.2 hd1)
  have l2 : A⁻¹ * A = 1 := Matrix.nonsing_inv_mul _ (isUnit_iff_ne_zero.2 hd2)
  have r2 : A * A⁻¹ = 1 := Matrix.mul_nonsing_inv _ (isUnit_iff_ne_zero.2 hd2)
  have ti1 : (A1⁻¹).transpose = A1⁻¹ := by rw [transpose_nonsing_inv, tA1]
  have ti2 : (A⁻¹).transpose = A⁻¹ := by rw [transpose_nonsing_inv, tA]
  -- members of the pencil commute in this sense
  have c1 : B * (A1⁻¹ * A) = A * (A1⁻¹ * B) := by
    rw [eA, eB]
    simp only [mul_sub, mul_add, sub_mul, add_mul, l1, ← mul_assoc, r1, one_mul, mul_one]
    simp only [mul_assoc]
    abel
  have c2 : A⁻¹ * (B * A1⁻¹) = A1⁻¹ * (B * A⁻¹) := by
    calc A⁻¹ * (B * A1⁻¹) = A⁻¹ * ((B * (A1⁻¹ * A)) * A⁻¹) := by rw [mul_assoc, mul_assoc A1⁻¹, r2, mul_one]
      _ = (A⁻¹ * A) * (A1⁻¹ * (B * A⁻¹)) := by rw [c1]; simp only [mul_assoc]
      _ = _ := by rw [l2, one_mul]
  have key : ∀ k, (resps G D h f k).transpose = resps G D h f k ∧
      A⁻¹ * (B * resps G D h f k) = resps G D h f k * (B * A⁻¹) := by
    intro k
    induction k using Nat.twoStepInduction with
    | zero => simp [resps]
    | one =>
      rw [resps, ← hA1]
      exact ⟨by rw [transpose_smul, ti1], by rw [mul_smul_comm, mul_smul_comm, smul_mul_assoc, c2]⟩
    | more k _ ih =>
      obtain ⟨i1, i2⟩ := ih
      rw [resps, ← hA, ← hB]
      constructor
      · rw [transpose_add, transpose_mul, transpose_mul, transpose_smul, ti2, tB, i1, i2, mul_assoc]
      · rw [mul_add, mul_add, add_mul, mul_smul_comm, mul_smul_comm, smul_mul_assoc]
        congr 1
        rw [i2]
        rw [← mul_assoc B, ← mul_assoc A⁻¹, i2]
  exact (key k).1

/-- the same wave form at two places -/
theorem trap_wave {G D : Matrix (Fin m) (Fin m) K} {h : K} (hG : G.transpose = G) (hD : D.transpose = D)
    (hd1 : (G + (1 / h) • D).det ≠ 0) (hd2 : (G + (2 / h) • D).det ≠ 0) {f : Nat → K} {X dX Y dY : Nat → Fin m → K} {u w : Fin m → K}
    {N : Nat} (x0 : X 0 = 0) (y0 : Y 0 = 0) (hdx : Deriv h X dX N) (hdy : Deriv h Y dY N)
    (hX : ∀ k < N, G *ᵥ X (k + 1) + D *ᵥ dX (k + 1) + f (k + 1) • u = 0)
    (hY : ∀ k < N, G *ᵥ Y (k + 1) + D *ᵥ dY (k + 1) + f (k + 1) • w = 0) (k : Nat) (hk : k ≤ N) : X k ⬝ᵥ w = Y k ⬝ᵥ u := by
  rw [resps_eq hd1 hd2 x0 hdx hX k hk, resps_eq hd1 hd2 y0 hdy hY k hk, neg_dotProduct, neg_dotProduct, dotProduct_comm,
    bil_symm (resps_symm hG hD hd1 hd2 f k), dotProduct_comm]

end

/-! ### The points of a transient analysis -/

omit [LinearOrder K] [IsStrictOrderedRing K] in
/-- the formula of a step without step control: implicit Euler at first -/
theorem trap_formula (iter : Nat) (e : Entry K m) (d : Fin m → K) (he : iter ≠ 0 → e.dx = some d) (h : K) :
    ∃ f, formula .trap false iter [e] h = .ok f ∧ f.c1 = (if iter = 0 then 1 / h else 2 / h) ∧
      ∀ y, f.c1 • y + f.c0 = if iter = 0 then (1 / h) • (y - e.x) else (2 / h) • (y - e.x) - d := by
  have hf : firstIters .trap = 1 := rfl
  unfold formula
  rw [hf]
  by_cases h0 : iter = 0
  · subst h0
    simp only [if_pos Nat.zero_lt_one, if_true, eulerDf, List.length_singleton, one_ne_zero, if_false, Bool.false_and]
    refine ⟨_, rfl, rfl, fun y => ?_⟩
    funext i
    simp only [DF.implicitEuler, xAt, Pi.add_apply, Pi.smul_apply, Pi.sub_apply, smul_eq_mul, List.getElem?_cons_zero, Option.map_some,
      Option.getD_some]
    ring
  · have hl : ¬ iter < 1 := by omega
    simp only [if_neg hl, if_neg h0, Meth.df, trapDf, he h0, Bool.false_and, Bool.false_eq_true, if_false, Option.isNone_some]
    refine ⟨_, rfl, rfl, fun y => ?_⟩
    funext i
    simp only [DF.trap, xAt, dxAt, Pi.add_apply, Pi.smul_apply, Pi.sub_apply, smul_eq_mul, List.getElem?_cons_zero, Option.map_some,
      Option.bind_some, Option.getD_some, he h0]
    ring

/-- points at distance `h` that satisfy the equations of the net with the derivatives of the formulas -/
def ChainT (n : Net K m) (h : K) : K → Bool → (Fin m → K) → (Fin m → K) → List (Entry K m) → Prop
  | _, _, _, _, [] => True
  | t, first, y, dy, e :: r => e.t = t + h ∧ ∃ d, e.dx = some d ∧
      d = (if first then (1 / h) • (e.x - y) else (2 / h) • (e.x - y) - dy) ∧
      (n.mna + gminMat n.nn n.gmin) *ᵥ e.x + n.D *ᵥ d + (n.N + n.Tt (t + h)) = 0 ∧ ChainT n h (t + h) false e.x d r

theorem goT {c : Cfg K} (hm : c.meth = .trap) (hc : c.control = false) (hlen : c.len = 1) (ho : Plain c.o) (hstd : c.o.meth.std = true)
    {n : Net K m} (hl : n.nonlinear = false) (hk : n.locked = []) {h : K} (hd1 : (n.mna + (1 / h) • n.D + gminMat n.nn n.gmin).det ≠ 0)
    (hd2 : (n.mna + (2 / h) • n.D + gminMat n.nn n.gmin).det ≠ 0) (x0 : Fin m → K)
    (N : Nat) (s : St K m) (e : Entry K m) (d : Fin m → K) (hb : s.buf = [e]) (he : s.iter ≠ 0 → e.dx = some d) (hs : s.tstep = h) :
    ∃ s' ps, run c n x0 (List.replicate N (.keep h)) s = .running s' ∧ s'.points = s.points ++ ps ∧ ps.length = N ∧
      ChainT n h s.time (s.iter == 0) e.x d ps := by
  induction N generalizing s e d with
  | zero => exact ⟨s, [], rfl, by simp, rfl, trivial⟩
  | succ N ih =>
    obtain ⟨f, hf, h1, h2⟩ := trap_formula s.iter e d he h
    have hd : (n.mna + f.c1 • n.D + gminMat n.nn n.gmin).det ≠ 0 := by
      rw [h1]
      split
      · exact hd1
      · exact hd2
    obtain ⟨z, hz, hz2⟩ := dcSolve_regular (c := n.at f (s.time + h)) ho hstd ⟨hl, hk⟩ n.gmin hd (some (startX c x0 s f)) 63
    have hp : pass c n x0 s (.keep h) = .running
        { time := s.time + h, tstep := h, iter := s.iter + 1, x := some z
          buf := ((⟨s.time + h, z, some (f.c1 • z + f.c0)⟩ : Entry K m) :: s.buf).take c.len
          points := s.points ++ [⟨s.time + h, z, some (f.c1 • z + f.c0)⟩] } := by
      unfold pass
      rw [hm, hc, hb, hs, hf]
      simp only
      rw [hz]
    obtain ⟨s', ps, r1, r2, r3, r4⟩ := ih
      { time := s.time + h, tstep := h, iter := s.iter + 1, x := some z
        buf := ((⟨s.time + h, z, some (f.c1 • z + f.c0)⟩ : Entry K m) :: s.buf).take c.len
        points := s.points ++ [⟨s.time + h, z, some (f.c1 • z + f.c0)⟩] } ⟨s.time + h, z, some (f.c1 • z + f.c0)⟩ (f.c1 • z + f.c0)
      (by rw [hlen]; rfl) (fun _ => rfl) rfl
    refine ⟨s', ⟨s.time + h, z, some (f.c1 • z + f.c0)⟩ :: ps, ?_, ?_, by simp [r3], rfl, f.c1 • z + f.c0, rfl, ?_, ?_, r4⟩
    · rw [List.replicate_succ, run, hp]
      exact r1
    · rw [r2]
      simp
    · rw [h2]
      simp only [beq_iff_eq]
    · simp only [Net.at] at hz2
      rw [Matrix.mulVec_add, mulVec_smul, add_mulVec]
      rw [add_mulVec, add_mulVec, smul_mulVec] at hz2
      rw [← hz2]
      abel

/-- the derivatives of a transient -/
def dvecs (d : Fin m → K) (ps : List (Entry K m)) (k : Nat) : Fin m → K := ((d :: ps.map fun e => e.dx.getD 0)[k]?).getD 0

omit [LinearOrder K] [IsStrictOrderedRing K] in
theorem chainT_eq {n : Net K m} {h : K} : ∀ {ps : List (Entry K m)} {t : K} {first : Bool} {y d : Fin m → K}, ChainT n h t first y d ps →
    ∀ k < ps.length, (ps[k]?.map (·.t)) = some (t + (k + 1 : Nat) * h) ∧
      dvecs d ps (k + 1) = (if k = 0 ∧ first = true then (1 / h) • (vecs y ps (k + 1) - vecs y ps k)
        else (2 / h) • (vecs y ps (k + 1) - vecs y ps k) - dvecs d ps k) ∧
      (n.mna + gminMat n.nn n.gmin) *ᵥ vecs y ps (k + 1) + n.D *ᵥ dvecs d ps (k + 1) + (n.N + n.Tt (t + (k + 1 : Nat) * h)) = 0
  | [], _, _, _, _, _, k, hk => by simp at hk
  | e :: r, t, first, y, d, ⟨h1, d', h2, h3, h4, h5⟩, 0, _ => by
    refine ⟨by simp [h1], ?_, ?_⟩
    · simp [dvecs, vecs, h2, h3]
    · simpa [dvecs, vecs, h2] using h4
  | e :: r, t, first, y, d, ⟨h1, d', h2, h3, h4, h5⟩, k + 1, hk => by
    obtain ⟨a1, a2, a3⟩ := chainT_eq h5 k (by simpa using hk)
    have et : t + h + (k + 1 : Nat) * h = t + (k + 1 + 1 : Nat) * h := by push_cast; ring
    rw [et] at a1 a3
    have ev : ∀ j, vecs y (e :: r) (j + 1) = vecs e.x r j := fun j => by simp [vecs]
    have ed : ∀ j, dvecs d (e :: r) (j + 1) = dvecs d' r j := fun j => by simp [dvecs, h2]
    refine ⟨by simpa using a1, ?_, ?_⟩
    · rw [ev, ev, ed, ed, a2]
      simp
    · rw [ev, ed]; exact a3

/-- two transients of circuits that differ in their sources only, with the trapezoidal rule -/
structure PairT (sqrt : K → Option K) (c : Cfg K) (nv m : Nat) (A B : List (Elem K)) (sA sB : Sys K) (DA DB : Mat K) (TA TB : K → Vec K)
    (cmin gmin h : K) : Prop where
  method : c.meth = .trap
  control : c.control = false
  len : bufferLen c.meth c.control = .ok c.len
  plain : Op.Plain c.o
  std : c.o.meth.std = true
  pos : 0 < nv
  built : Built sqrt A
  same : A.filterMap bare = B.filterMap bare
  nodesA : ∀ e ∈ A, NodesLt nv e
  nodesB : ∀ e ∈ B, NodesLt nv e
  polesA : ∀ e ∈ A, TwoPole e
  polesB : ∀ e ∈ B, TwoPole e
  genA : generate A nv = .ok sA
  genB : generate B nv = .ok sB
  size : sA.size = m + 1
  dynA : generateD A nv (m + 1) cmin = .ok DA
  dynB : generateD B nv (m + 1) cmin = .ok DB
  srcA : ∀ t, genTt A nv (some t) = .ok (TA t)
  srcB : ∀ t, genTt B nv (some t) = .ok (TB t)
  det1 : (reduce m sA.M + (1 / h) • reduce m DA + gminMat (nv - 1) gmin).det ≠ 0
  det2 : (reduce m sA.M + (2 / h) • reduce m DA + gminMat (nv - 1) gmin).det ≠ 0

variable {sqrt : K → Option K} {c : Cfg K} {nv : Nat} {A B : List (Elem K)} {sA sB : Sys K} {DA DB : Mat K} {TA TB : K → Vec K}
  {cmin gmin h : K}

/-- the points of both analyses -/
theorem bothT (P : PairT sqrt c nv m A B sA sB DA DB TA TB cmin gmin h) (t0 : K) (N : Nat) :
    ∃ s1 s2, run c (net m sA DA nv gmin TA) 0 (List.replicate N (.keep h)) (start c t0 h 0) = .running s1 ∧
      run c (net m sB DB nv gmin TB) 0 (List.replicate N (.keep h)) (start c t0 h 0) = .running s2 ∧
      s1.points.length = N ∧ s2.points.length = N ∧
      ChainT (net m sA DA nv gmin TA) h t0 true 0 0 s1.points ∧ ChainT (net m sB DB nv gmin TB) h t0 true 0 0 s2.points := by
  obtain ⟨-, q1, q2⟩ := same_matrices P.pos P.same P.nodesA P.nodesB P.polesA P.polesB P.genA P.genB P.size P.dynA P.dynB
  have hlen : c.len = 1 := by
    have h1 := P.len
    rw [P.method, P.control] at h1
    have : bufferLen .trap false = .ok 1 := rfl
    rw [this] at h1
    exact (Except.ok.inj h1).symm
  have b : (start c t0 h (0 : Fin m → K)).buf = [⟨t0, 0, none⟩] := by simp [start, hlen]
  obtain ⟨s1, p1, a1, a2, a3, a4⟩ := goT P.method P.control hlen P.plain P.std (n := net m sA DA nv gmin TA) rfl rfl (h := h) P.det1 P.det2
    0 N (start c t0 h 0) _ 0 b (fun k => absurd rfl k) rfl
  obtain ⟨s2, p2, b1, b2, b3, b4⟩ := goT P.method P.control hlen P.plain P.std (n := net m sB DB nv gmin TB) rfl rfl (h := h)
    (by
      show (reduce m sB.M + (1 / h) • reduce m DB + gminMat (nv - 1) gmin).det ≠ 0
      rw [q1, q2]
      exact P.det1)
    (by
      show (reduce m sB.M + (2 / h) • reduce m DB + gminMat (nv - 1) gmin).det ≠ 0
      rw [q1, q2]
      exact P.det2) 0 N (start c t0 h 0) _ 0 b (fun k => absurd rfl k) rfl
  have e1 : s1.points = p1 := by rw [a2]; rfl
  have e2 : s2.points = p2 := by rw [b2]; rfl
  exact ⟨s1, s2, a1, b1, by rw [e1, a3], by rw [e2, b3], by rw [e1]; exact a4, by rw [e2]; exact b4⟩

/-- the same wave form at two places -/
theorem wavesT (P : PairT sqrt c nv m A B sA sB DA DB TA TB cmin gmin h) (t0 : K) (N : Nat) {f : K → K} {u w : Fin m → K}
    (hA : ∀ t (x : Fin m → K), drive (srcVal (some t)) A nv (Rlc.ext x) = f t * (x ⬝ᵥ u))
    (hB : ∀ t (x : Fin m → K), drive (srcVal (some t)) B nv (Rlc.ext x) = f t * (x ⬝ᵥ w)) :
    ∃ s1 s2, run c (net m sA DA nv gmin TA) 0 (List.replicate N (.keep h)) (start c t0 h 0) = .running s1 ∧
      run c (net m sB DB nv gmin TB) 0 (List.replicate N (.keep h)) (start c t0 h 0) = .running s2 ∧
      s1.points.length = N ∧ s2.points.length = N ∧ ∀ k e1 e2, s1.points[k]? = some e1 → s2.points[k]? = some e2 →
        e1.t = t0 + (k + 1 : Nat) * h ∧ e2.t = e1.t ∧ e1.x ⬝ᵥ w = e2.x ⬝ᵥ u := by
  obtain ⟨hmB, q1, q2⟩ := same_matrices P.pos P.same P.nodesA P.nodesB P.polesA P.polesB P.genA P.genB P.size P.dynA P.dynB
  obtain ⟨s1, s2, r1, r2, l1, l2, c1, c2⟩ := bothT P t0 N
  refine ⟨s1, s2, r1, r2, l1, l2, fun k e1 e2 h1 h2 => ?_⟩
  obtain ⟨y1, y2⟩ := symmetric P.pos P.built P.nodesA P.polesA P.genA P.size (cmin := cmin) (D := DA)
    (by rw [C08_ac_same, P.size]; exact P.dynA)
  have vec : ∀ {b v : Fin m → K} {a : K}, (∀ x : Fin m → K, x ⬝ᵥ b = a * (x ⬝ᵥ v)) → b = a • v := by
    intro b v a hx
    funext i
    have := hx (Pi.single i 1)
    simpa using this
  have bA : ∀ t, reduceV m sA.N + reduceV m (TA t) = f t • u := fun t =>
    vec fun x => by rw [weigh P.pos P.nodesA P.polesA P.genA P.size P.srcA, hA]
  have bB : ∀ t, reduceV m sB.N + reduceV m (TB t) = f t • w := fun t =>
    vec fun x => by rw [weigh P.pos P.nodesB P.polesB P.genB hmB P.srcB, hB]
  have k1 : k < s1.points.length := (List.getElem?_eq_some_iff.1 h1).1
  have t1 := (chainT_eq c1 k k1).1
  have t2 := (chainT_eq c2 k (by omega)).1
  rw [h1] at t1
  rw [h2] at t2
  simp only [Option.map_some, Option.some.injEq] at t1 t2
  refine ⟨t1, by rw [t1, t2], ?_⟩
  have dd : ∀ {n : Net K m} {ps : List (Entry K m)}, ps.length = N → ChainT n h t0 true 0 0 ps → Deriv h (vecs 0 ps) (dvecs 0 ps) N := by
    intro n ps hl hc j hj
    have := (chainT_eq hc j (by omega)).2.1
    rw [this]
    obtain _ | j := j
    · simp
    · simp
  have key := trap_wave (G := reduce m sA.M + gminMat (nv - 1) gmin) (D := reduce m DA) (h := h)
    (by rw [Matrix.transpose_add, y1, gminMat, Matrix.diagonal_transpose]) y2 (by rw [add_right_comm]; exact P.det1)
    (by rw [add_right_comm]; exact P.det2) (X := vecs 0 s1.points) (dX := dvecs 0 s1.points) (Y := vecs 0 s2.points)
    (dY := dvecs 0 s2.points) (u := u) (w := w) (f := fun k => f (t0 + k * h)) (N := N)
    rfl rfl (dd l1 c1) (dd l2 c2) (fun k hk => by rw [← bA]; exact (chainT_eq c1 k (by omega)).2.2) (fun k hk => by
      have := (chainT_eq c2 k (by omega)).2.2
      simp only [net, netT, netOf, q1, q2] at this
      rw [← bB]
      exact this) (k + 1) (by omega)
  simpa [vecs, h1, h2] using key

/-- C218: reciprocity of transfer impedances holds for transients with the trapezoidal rule as well. -/
theorem C218_trap_impedance {circ : List (Elem K)} {ida idb : String} {a b p q : Nat} {u w : Src K}
    (P : PairT sqrt c nv m (circ ++ [.I ida a b u]) (circ ++ [.I idb p q w]) sA sB DA DB TA TB cmin gmin h)
    (hq : ∀ e ∈ circ, Silent e) (hf : ∀ t, srcVal (some t) u = srcVal (some t) w) (t0 : K) (N : Nat) :
    ∃ s1 s2, run c (net m sA DA nv gmin TA) 0 (List.replicate N (.keep h)) (start c t0 h 0) = .running s1 ∧
      run c (net m sB DB nv gmin TB) 0 (List.replicate N (.keep h)) (start c t0 h 0) = .running s2 ∧
      s1.points.length = N ∧ s2.points.length = N ∧ ∀ k e1 e2, s1.points[k]? = some e1 → s2.points[k]? = some e2 →
        e1.t = t0 + (k + 1 : Nat) * h ∧ e2.t = e1.t ∧ Rlc.ext e1.x p - Rlc.ext e1.x q = Rlc.ext e2.x a - Rlc.ext e2.x b := by
  have key := wavesT P t0 N (f := fun t => srcVal (some t) u) (u := unit m a - unit m b) (w := unit m p - unit m q)
    (fun t x => ?_) fun t x => ?_
  · simpa only [dotProduct_sub, dot_unit] using key
  · rw [drive_silent hq, dotProduct_sub, dot_unit, dot_unit]
    simp [srcNode, brSum, Elem.vde]
  · rw [drive_silent hq, dotProduct_sub, dot_unit, dot_unit, hf]
    simp [srcNode, brSum, Elem.vde]

/-- C218: reciprocity of transfer admittances holds for transients with the trapezoidal rule as well. -/
theorem C218_trap_admittance {circ : List (Elem K)} {ida idb : String} {a b p q : Nat} {u w : Src K} {z z' : Src K}
    (P : PairT sqrt c nv m (circ ++ [.V ida a b u, .V idb p q z]) (circ ++ [.V ida a b z', .V idb p q w]) sA sB DA DB TA TB cmin gmin h)
    (hq : ∀ e ∈ circ, Silent e) (hf : ∀ t, srcVal (some t) u = srcVal (some t) w) (hz : ∀ t, srcVal (some t) z = 0)
    (hz' : ∀ t, srcVal (some t) z' = 0) (t0 : K) (N : Nat) :
    ∃ s1 s2, run c (net m sA DA nv gmin TA) 0 (List.replicate N (.keep h)) (start c t0 h 0) = .running s1 ∧
      run c (net m sB DB nv gmin TB) 0 (List.replicate N (.keep h)) (start c t0 h 0) = .running s2 ∧
      s1.points.length = N ∧ s2.points.length = N ∧ ∀ k e1 e2, s1.points[k]? = some e1 → s2.points[k]? = some e2 →
        e1.t = t0 + (k + 1 : Nat) * h ∧ e2.t = e1.t ∧
        Rlc.ext e1.x (nv + (vdes circ).length + 1) = Rlc.ext e2.x (nv + (vdes circ).length) := by
  have key := wavesT P t0 N (f := fun t => srcVal (some t) u) (u := -unit m (nv + (vdes circ).length))
    (w := -unit m (nv + (vdes circ).length + 1)) (fun t x => ?_) fun t x => ?_
  · simpa only [dotProduct_neg, dot_unit, neg_inj] using key
  · rw [drive_silent hq, dotProduct_neg, dot_unit]
    simp [srcNode, srcBranch, brSum, Elem.vde, hz]
  · rw [drive_silent hq, dotProduct_neg, dot_unit, hf]
    simp [srcNode, srcBranch, brSum, Elem.vde, hz', Nat.add_assoc]

/-- hypotheses of `C218_trap_impedance` -/
example (c : Cfg ℚ) (h1 : c.meth = .trap) (h2 : c.control = false) (h3 : c.len = 1) (h4 : Op.Plain c.o) (h5 : c.o.meth.std = true) :
    PairT (fun _ => none) c 3 3 left right (sysQ left 3) (sysQ right 3) (dynQ left 3 4) (dynQ right 3 4) (ttQ left 3) (ttQ right 3) 0
      (1 / 1000) (1 / 2) where
  method := h1
  control := h2
  len := by rw [h1, h2, h3]; rfl
  plain := h4
  std := h5
  pos := by decide
  built := .add (.add (.add (.add .nil (by simp) (by simp) (by simp [Elem.vde])) (by simp) (by simp) (by simp [Elem.vde])) (by simp)
    (by simp) (by simp [Elem.vde])) (by simp) (by simp) (by simp [Elem.vde])
  same := rfl
  nodesA := by simp [left, filter, NodesLt]
  nodesB := by simp [right, filter, NodesLt]
  polesA := by simp [left, filter, TwoPole]
  polesB := by simp [right, filter, TwoPole]
  genA := rfl
  genB := rfl
  size := rfl
  dynA := rfl
  dynB := rfl
  srcA := fun _ => rfl
  srcB := fun _ => rfl
  det1 := by simp only [Matrix.det_fin_three]; decide +kernel
  det2 := by simp only [Matrix.det_fin_three]; decide +kernel

end Verif.TranRecip
