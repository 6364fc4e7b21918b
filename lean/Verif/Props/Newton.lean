import Verif.Model.Newton
import Verif.Props.Conv
import Mathlib.LinearAlgebra.Matrix.Notation
import Mathlib.Tactic.FieldSimp
import Mathlib.Tactic.Ring

/-!
Properties C13 (damping), C15 (linear circuits), C78 (what the Newton solver reports).
-/

namespace Verif.Newton
open Verif.Conv Matrix

variable {K : Type} [Field K] [LinearOrder K] [IsStrictOrderedRing K]

/-! ### damping -/

/-- Change of a node voltage (node 0 is the reference, node `n` is unknown `n-1`). -/
def nodeDelta {m : Nat} (dx : Fin m → K) (n : Nat) : K :=
  if h : 0 < n ∧ n ≤ m then dx ⟨n - 1, by omega⟩ else 0

/-- Change of a port voltage. -/
def portDelta {m : Nat} (dx : Fin m → K) (p : Nat × Nat) : K :=
  nodeDelta dx p.1 - nodeDelta dx p.2

omit [LinearOrder K] [IsStrictOrderedRing K] in
theorem pyAt_node {m : Nat} [LinearOrder K] (dx : Fin m → K) (n : Nat) (hn : n ≠ 0) (hm : n ≤ m) :
    pyAt dx ((n : Int) - 1) = nodeDelta dx n := by
  unfold pyAt nodeDelta
  rw [dif_pos (by omega), dif_pos (by omega)]
  congr 1
  apply Fin.ext
  show ((n : Int) - 1).toNat = n - 1
  omega

omit [IsStrictOrderedRing K] in
theorem tdStep_eq {m : Nat} (lim : K) (dx : Fin m → K) (st : K × K) (p : Nat × Nat)
    (h0 : p ≠ (0, 0)) (h1 : p.1 ≤ m) (h2 : p.2 ≤ m) :
    tdStep lim dx st p =
      let tdNew := if |portDelta dx p| > lim then lim / |portDelta dx p| else st.2
      (if tdNew < st.1 then tdNew else st.1, tdNew) := by
  obtain ⟨a, b⟩ := p
  have hz : nodeDelta dx 0 = 0 := by unfold nodeDelta; rw [dif_neg (by omega)]
  unfold tdStep
  simp only [ne_eq] at *
  by_cases ha : a = 0
  · subst ha
    have hb : b ≠ 0 := by rintro rfl; exact h0 rfl
    have : |portDelta dx (0, b)| = |pyAt dx ((b : Int) - 1)| := by
      rw [pyAt_node dx b hb h2]; unfold portDelta; simp [hz, abs_neg]
    simp only [not_true_eq_false, if_false, this]
  · by_cases hb : b = 0
    · subst hb
      have : portDelta dx (a, 0) = pyAt dx ((a : Int) - 1) := by
        rw [pyAt_node dx a ha h1]; unfold portDelta; simp [hz]
      simp only [ha, not_false_eq_true, if_true, not_true_eq_false, if_false, this]
    · have : portDelta dx (a, b) = pyAt dx ((a : Int) - 1) - pyAt dx ((b : Int) - 1) := by
        rw [pyAt_node dx a ha h1, pyAt_node dx b hb h2]; rfl
      simp only [ha, hb, not_false_eq_true, if_true, this]

/-- The accumulated factor: bounded by the start value, positive, keeps every port within
the limit, and is either the start value or exactly at the limit for some port. -/
theorem tdFold {m : Nat} (lim : K) (hlim : 0 < lim) (dx : Fin m → K) (ports : List (Nat × Nat))
    (hp : ∀ p ∈ ports, p ≠ (0, 0) ∧ p.1 ≤ m ∧ p.2 ≤ m) (st : K × K) (h0 : 0 < st.1)
    (h01 : st.1 ≤ 1) (hst : st.1 ≤ st.2) :
    let r := ports.foldl (tdStep lim dx) st
    0 < r.1 ∧ r.1 ≤ st.1 ∧ r.1 ≤ r.2 ∧ (∀ p ∈ ports, r.1 * |portDelta dx p| ≤ lim) ∧
      (r.1 = st.1 ∨ ∃ p ∈ ports, r.1 * |portDelta dx p| = lim ∧ lim < |portDelta dx p|) := by
  induction ports generalizing st with
  | nil => simp [h0, hst]
  | cons p r ih =>
    obtain ⟨q0, q1, q2⟩ := hp p (by simp)
    simp only [List.foldl_cons]
    have key : ∃ st' : K × K, tdStep lim dx st p = st' ∧ 0 < st'.1 ∧ st'.1 ≤ st.1 ∧
        st'.1 ≤ st'.2 ∧ st'.1 * |portDelta dx p| ≤ lim ∧
        (st'.1 = st.1 ∨ (st'.1 * |portDelta dx p| = lim ∧ lim < |portDelta dx p|)) := by
      refine ⟨_, rfl, ?_⟩
      rw [tdStep_eq lim dx st p q0 q1 q2]
      by_cases hd : |portDelta dx p| > lim
      · have hpos : 0 < |portDelta dx p| := hlim.trans hd
        have e : lim / |portDelta dx p| * |portDelta dx p| = lim := by field_simp
        simp only [hd, if_true]
        by_cases hlt : lim / |portDelta dx p| < st.1
        · simp only [hlt, if_true]
          exact ⟨div_pos hlim hpos, hlt.le, le_refl _, e.le, Or.inr ⟨e, trivial⟩⟩
        · simp only [hlt, if_false]
          refine ⟨h0, le_refl _, not_lt.1 hlt, ?_, by simp⟩
          have := mul_le_mul_of_nonneg_right (not_lt.1 hlt) hpos.le
          rw [e] at this; exact this
      · simp only [hd, if_false]
        have hlt : ¬ st.2 < st.1 := not_lt.2 hst
        simp only [hlt, if_false]
        refine ⟨h0, le_refl _, hst, ?_, by simp⟩
        have h1 := mul_le_mul_of_nonneg_right h01 (abs_nonneg (portDelta dx p))
        have h2 := not_lt.1 hd
        linarith
    obtain ⟨st', e, a1, a2, a3, a4, a5⟩ := key
    rw [e]
    obtain ⟨b1, b2, b3, b4, b5⟩ := ih (fun p hp' => hp p (by simp [hp'])) st' a1 (a2.trans h01) a3
    refine ⟨b1, b2.trans a2, b3, ?_, ?_⟩
    · intro p' hp'
      rcases List.mem_cons.1 hp' with rfl | hp'
      · exact (mul_le_mul_of_nonneg_right b2 (abs_nonneg _)).trans a4
      · exact b4 p' hp'
    · rcases b5 with b5 | ⟨p', hp', h'⟩
      · rcases a5 with a5 | a5
        · exact Or.inl (b5.trans a5)
        · refine Or.inr ⟨p, by simp, ?_, a5.2⟩
          rw [b5]; exact a5.1
      · exact Or.inr ⟨p', by simp [hp'], h'⟩

/-- C13: with the damping of the first iterations disabled (or not, then the upper bound is
smaller): the factor is in `(0, 1]`; after damping no locked port moves by more than the
limit; the factor is as large as possible: it is 1 or it moves some locked port by exactly
the limit; in particular an update within the limit is not damped. Hypothesis: no locked
port has both terminals on the reference (see the refutation). -/
theorem C13_damping_partial {m : Nat} (o : Opts K) (hl : o.lock = true) (hd : o.dampFirst = false)
    (hlim : 0 < o.lim) (dx : Fin m → K) (locked : List (Nat × Nat)) (n : Int)
    (hp : ∀ p ∈ locked, p ≠ (0, 0) ∧ p.1 ≤ m ∧ p.2 ≤ m) :
    0 < getTd o dx locked n ∧ getTd o dx locked n ≤ 1 ∧
      (∀ p ∈ locked, |portDelta (getTd o dx locked n • dx) p| ≤ o.lim) ∧
      (getTd o dx locked n = 1 ∨
        ∃ p ∈ locked, |portDelta (getTd o dx locked n • dx) p| = o.lim) ∧
      ((∀ p ∈ locked, |portDelta dx p| ≤ o.lim) → getTd o dx locked n = 1) := by
  have hg : getTd o dx locked n = (locked.foldl (tdStep o.lim dx) (1, 1)).1 := by
    unfold getTd tdFirst; simp [hl, hd]
  have hs : ∀ (c : K) p, 0 < c → |portDelta (c • dx) p| = c * |portDelta dx p| := by
    intro c p hc
    have hn : ∀ k, nodeDelta (c • dx) k = c * nodeDelta dx k := by
      intro k; unfold nodeDelta; split <;> simp
    unfold portDelta
    rw [hn, hn, ← mul_sub, abs_mul, abs_of_pos hc]
  obtain ⟨a1, a2, -, a4, a5⟩ :=
    tdFold o.lim hlim dx locked hp (1, 1) one_pos (le_refl _) (le_refl _)
  rw [hg]
  refine ⟨a1, a2, ?_, ?_, ?_⟩
  · intro p hp'; rw [hs _ _ a1]; exact a4 p hp'
  · rcases a5 with a5 | ⟨p, hp', h, -⟩
    · exact Or.inl a5
    · exact Or.inr ⟨p, hp', by rw [hs _ _ a1]; exact h⟩
  · intro hin
    rcases a5 with a5 | ⟨p, hp', -, h⟩
    · exact a5
    · exact absurd (hin p hp') (not_le.2 h)

/-- C13: any larger factor would break the limit on some locked port (maximality, stated for
a factor smaller than one). -/
theorem C13_maximal_partial {m : Nat} (o : Opts K) (hl : o.lock = true) (hd : o.dampFirst = false)
    (hlim : 0 < o.lim) (dx : Fin m → K) (locked : List (Nat × Nat)) (n : Int)
    (hp : ∀ p ∈ locked, p ≠ (0, 0) ∧ p.1 ≤ m ∧ p.2 ≤ m) (c : K) (hc : getTd o dx locked n < c)
    (hc1 : c ≤ 1) : ∃ p ∈ locked, o.lim < |portDelta (c • dx) p| := by
  obtain ⟨a1, -, -, a4, -⟩ := C13_damping_partial o hl hd hlim dx locked n hp
  have hcp : 0 < c := a1.trans hc
  have hs : ∀ (c : K) p, 0 < c → |portDelta (c • dx) p| = c * |portDelta dx p| := by
    intro c p hc
    have hn : ∀ k, nodeDelta (c • dx) k = c * nodeDelta dx k := by
      intro k; unfold nodeDelta; split <;> simp
    unfold portDelta
    rw [hn, hn, ← mul_sub, abs_mul, abs_of_pos hc]
  rcases a4 with h | ⟨p, hp', h⟩
  · rw [h] at hc; exact absurd hc1 (not_le.2 hc)
  · refine ⟨p, hp', ?_⟩
    rw [hs _ _ hcp]
    rw [hs _ _ a1] at h
    have hpos : 0 < |portDelta dx p| := by
      rcases (abs_nonneg (portDelta dx p)).lt_or_eq with q | q
      · exact q
      · rw [← q, mul_zero] at h; rw [← h] at hlim; exact absurd hlim (lt_irrefl _)
    rw [← h]
    exact mul_lt_mul_of_pos_right hc hpos

/-- C13 with damping of the first iterations enabled: still positive and within the limits. -/
theorem C13_first_iterations {m : Nat} (o : Opts K) (hl : o.lock = true) (hlim : 0 < o.lim)
    (dx : Fin m → K) (locked : List (Nat × Nat)) (n : Int)
    (hp : ∀ p ∈ locked, p ≠ (0, 0) ∧ p.1 ≤ m ∧ p.2 ≤ m) :
    0 < getTd o dx locked n ∧ getTd o dx locked n ≤ tdFirst o n ∧ tdFirst o n ≤ 1 ∧
      ∀ p ∈ locked, getTd o dx locked n * |portDelta dx p| ≤ o.lim := by
  have hf : 0 < tdFirst o n ∧ tdFirst o n ≤ 1 := by
    unfold tdFirst
    repeat' split
    all_goals norm_num
  have hg : getTd o dx locked n = (locked.foldl (tdStep o.lim dx) (tdFirst o n, 1)).1 := by
    unfold getTd; simp [hl]
  obtain ⟨a1, a2, -, a4, -⟩ := tdFold o.lim hlim dx locked hp (tdFirst o n, 1) hf.1 hf.2 hf.2
  rw [hg]
  exact ⟨a1, a2, hf.2, a4⟩

/-- C13 is false as stated: a device port with both terminals on the reference (an NMOS with
grounded source and bulk has one) makes the *last unknown* of the system, here a branch
current, damp the update although no locked port moves at all. -/
theorem C13_grounded_port_refuted :
    ∃ (o : Opts ℚ) (dx : Fin 2 → ℚ) (locked : List (Nat × Nat)), o.lock = true ∧
      o.dampFirst = false ∧ 0 < o.lim ∧ (∀ p ∈ locked, p.1 ≤ 1 ∧ p.2 ≤ 1) ∧
      (∀ p ∈ locked, |portDelta dx p| ≤ o.lim) ∧ getTd o dx locked 1 = 1 / 20 :=
  ⟨{ lim := 1 / 10 }, ![1 / 100, 2], [(1, 0), (0, 0)], rfl, rfl, by norm_num, by decide,
    by decide +kernel, by decide +kernel⟩

/-- Such a port list does come out of a circuit: `get_locked_nodes` of an EKV transistor with
grounded source and bulk. -/
example : lockedNodes [(.NL "M1" 1 0 none [(1, 0), (2, 0), (0, 0)] [(1, 0)] : Circuit.Elem ℚ)] =
    [(1, 0), (2, 0), (0, 0)] := by decide

example : getTd ({ lim := 1 / 10 } : Opts ℚ) (![1, 1 / 2] : Fin 2 → ℚ) [(1, 2), (2, 0)] 1 = 1 / 5 := by
  decide +kernel

/-! ### linear circuits -/

/-- C15: a circuit without non-linear elements, default options, non-singular matrix: from
any starting point the solver returns the exact solution of `mna*x + T = 0` in one iteration
and reports convergence. -/
theorem C15_linear_exact {m : Nat} {α : Type} (circ : List (Circuit.Elem α))
    (hlin : isNonlinear circ = false) (o : Opts K) (hd : o.dampFirst = false) (t : Tol K)
    (p : Problem K m) (hp : p.nonlinear = isNonlinear circ) (hk : p.locked = lockedNodes circ)
    (hdet : p.mna.det ≠ 0) (maxit : Nat) (hm : 0 < maxit) (x0 : Option (Fin m → K)) :
    ∃ r, mdnSolver o t p maxit x0 = .ok r ∧ r.converged = true ∧ r.iteration = 1 ∧
      p.mna *ᵥ r.x + p.T = 0 := by
  have hnl : p.nonlinear = false := hp.trans hlin
  have hlk : p.locked = [] := by
    rw [hk]
    unfold lockedNodes
    rw [List.flatMap_eq_nil_iff]
    intro e he
    have : e.nonlinear = false := by
      by_contra hne
      have : isNonlinear circ = true := by
        unfold isNonlinear
        rw [List.any_eq_true]
        exact ⟨e, he, by simpa using hne⟩
      rw [hlin] at this; cases this
    cases e <;> first | rfl | cases this
  obtain ⟨k, rfl⟩ : ∃ k, maxit = k + 1 := ⟨maxit - 1, by omega⟩
  have hj : jac p (x0.getD 0) = p.mna := by simp [jac, hnl]
  have hs : solve (jac p (x0.getD 0)) (-residual p (x0.getD 0)) =
      some (p.mna⁻¹ *ᵥ (-residual p (x0.getD 0))) := by
    unfold solve; rw [hj, if_neg hdet]
  have htd : getTd o (p.mna⁻¹ *ᵥ (-residual p (x0.getD 0))) p.locked ((0 : Nat) + 1 : Int) = 1 := by
    unfold getTd tdFirst
    simp [hlk, hd]
  refine ⟨⟨x0.getD 0 + (1 : K) • (p.mna⁻¹ *ᵥ (-residual p (x0.getD 0))),
    p.mna⁻¹ *ᵥ (-residual p (x0.getD 0)), residual p (x0.getD 0), true, 1⟩, ?_, rfl, rfl, ?_⟩
  · unfold mdnSolver loop
    simp only [hs, htd, hnl, Bool.not_false, if_true]
  · have hu : IsUnit p.mna.det := isUnit_iff_ne_zero.2 hdet
    simp only [one_smul, mulVec_add, mulVec_mulVec, Matrix.mul_nonsing_inv _ hu, one_mulVec]
    unfold residual
    simp only [hnl, Bool.false_eq_true, if_false, add_zero]
    abel

/-- C15: and that is the only solution. -/
theorem C15_unique {m : Nat} (A : Matrix (Fin m) (Fin m) K) (T x y : Fin m → K)
    (hdet : A.det ≠ 0) (hx : A *ᵥ x + T = 0) (hy : A *ᵥ y + T = 0) : x = y := by
  have hu : IsUnit A.det := isUnit_iff_ne_zero.2 hdet
  have : A *ᵥ x = A *ᵥ y := by
    have := hx.trans hy.symm
    exact add_right_cancel this
  have h2 := congrArg (fun v => A⁻¹ *ᵥ v) this
  simpa [mulVec_mulVec, Matrix.nonsing_inv_mul _ hu] using h2

/-- C79: with `nr_damp_first_iters` switched on, a linear circuit is "solved" with a damped
step: the returned point is only one percent of the way to the solution, and convergence is
reported. -/
theorem C79_damped_linear_refuted :
    ∃ (o : Opts ℚ) (t : Tol ℚ) (p : Problem ℚ 1) (r : Result ℚ 1), o.dampFirst = true ∧
      p.nonlinear = false ∧ p.mna.det ≠ 0 ∧ mdnSolver o t p 100 none = .ok r ∧
      r.converged = true ∧ p.mna *ᵥ r.x + p.T ≠ 0 := by
  let p : Problem ℚ 1 :=
    ⟨!![1], ![-1], false, fun _ => 0, fun _ => 0, [], 2⟩
  let o : Opts ℚ := { dampFirst := true, lim := 1 }
  have hdet : p.mna.det = 1 := by simp [p]
  have hres : residual p 0 = ![-1] := by
    unfold residual; simp [p]
  have hinv : p.mna⁻¹ = 1 := by
    apply Matrix.inv_eq_right_inv
    ext i j; fin_cases i; fin_cases j; simp [p]
  have hs : solve (jac p 0) (-residual p 0) = some (![1]) := by
    unfold solve
    have hj : jac p 0 = p.mna := by simp [jac, p]
    rw [hj, if_neg (by rw [hdet]; norm_num), hinv, hres, one_mulVec]
    congr 1
    ext i; fin_cases i; simp
  have htd : getTd o (![1] : Fin 1 → ℚ) p.locked ((0 : Nat) + 1 : Int) = 1 / 100 := by
    decide +kernel
  refine ⟨o, ⟨1, 1, 1, 1⟩, p, ⟨0 + (1 / 100 : ℚ) • ![1], ![1], ![-1], true, 1⟩, rfl, rfl,
    by rw [hdet]; norm_num, ?_, rfl, ?_⟩
  · unfold mdnSolver loop
    rw [hres] at hs
    simp only [Option.getD_none, hres, hs, htd]
    rfl
  · intro h
    have := congrFun h 0
    simp [p] at this
    norm_num at this

/-! ### non-linear circuits -/

/-- One pass of the loop from `x`: the linearised system is solved exactly. -/
def IsStep {m : Nat} (o : Opts K) (p : Problem K m) (it : Nat) (x : Fin m → K) (r : Result K m) :
    Prop :=
  r.res = residual p x ∧ jac p x *ᵥ r.dx = -r.res ∧
    r.x = x + getTd o r.dx p.locked ((it : Int) + 1) • r.dx

theorem solve_spec {m : Nat} {A : Matrix (Fin m) (Fin m) K} {b d : Fin m → K}
    (h : solve A b = some d) : A *ᵥ d = b ∧ A.det ≠ 0 := by
  unfold solve at h
  split at h
  · cases h
  · rename_i hd
    cases h
    refine ⟨?_, hd⟩
    rw [mulVec_mulVec, Matrix.mul_nonsing_inv _ (isUnit_iff_ne_zero.2 hd), one_mulVec]

theorem loop_spec {m : Nat} (o : Opts K) (t : Tol K) (p : Problem K m) (k it : Nat)
    (x : Fin m → K) (last : Option ((Fin m → K) × (Fin m → K)))
    (hlast : ∀ d r, last = some (d, r) → p.nonlinear = true ∧
      check t x d r (p.nv - 1) = false ∧ ∃ x', IsStep o p (it - 1) x' ⟨x, d, r, false, it⟩)
    (hit : last ≠ none → 1 ≤ it)
    (r : Result K m) (h : loop o t p k it x last = .ok r) :
    1 ≤ r.iteration ∧ r.iteration ≤ it + k ∧ it ≤ r.iteration ∧
      (r.converged = true ↔ p.nonlinear = false ∨ check t r.x r.dx r.res (p.nv - 1) = true) ∧
      (∃ x', IsStep o p (r.iteration - 1) x' r) := by
  induction k generalizing it x last with
  | zero =>
    unfold loop at h
    cases last with
    | none => cases h
    | some dr =>
      obtain ⟨d, rs⟩ := dr
      simp only [Except.ok.injEq] at h
      obtain ⟨hn, hc, x', hx'⟩ := hlast d rs rfl
      subst h
      refine ⟨hit (by simp), le_refl _, le_refl _, ?_, x', hx'⟩
      simp [hn, hc]
  | succ k ih =>
    unfold loop at h
    simp only at h
    cases hs : solve (jac p x) (-residual p x) with
    | none => simp [hs] at h
    | some dx =>
      obtain ⟨hsol, -⟩ := solve_spec hs
      rw [hs] at h
      simp only at h
      by_cases hn : p.nonlinear = true
      · simp only [hn, Bool.not_true, Bool.false_eq_true, if_false] at h
        split at h
        · rename_i hc
          simp only [Except.ok.injEq] at h
          subst h
          refine ⟨by simp, by simp, by simp, by simp [hc], x, rfl, hsol, ?_⟩
          simp
        · rename_i hc
          have := ih (it + 1) _ (some (dx, residual p x)) (by
            intro d r' e
            simp only [Option.some.injEq, Prod.mk.injEq] at e
            obtain ⟨rfl, rfl⟩ := e
            refine ⟨hn, by simpa using hc, x, rfl, hsol, ?_⟩
            simp) (by intro _; omega) h
          obtain ⟨a, b, b', c, d⟩ := this
          exact ⟨a, by omega, by omega, c, d⟩
      · have hn' : p.nonlinear = false := by simpa using hn
        simp only [hn', Bool.not_false, if_true, Except.ok.injEq] at h
        subst h
        refine ⟨by simp, by simp, by simp, by simp [hn'], x, rfl, hsol, ?_⟩
        simp

/-- C78: whatever the devices do: a result is obtained after between 1 and `MAXIT`
iterations; it reports convergence iff the circuit is linear or the returned point passes
the convergence test with the last increment and residual; and these are the ones of a
genuine Newton step (`(mna + J(x')) dx = -F(x')`, `x = x' + td*dx`) from some point. -/
theorem C78_report_exact {m : Nat} (o : Opts K) (t : Tol K) (p : Problem K m) (maxit : Nat)
    (x0 : Option (Fin m → K)) (r : Result K m) (h : mdnSolver o t p maxit x0 = .ok r) :
    1 ≤ r.iteration ∧ r.iteration ≤ maxit ∧
      (r.converged = true ↔ p.nonlinear = false ∨ check t r.x r.dx r.res (p.nv - 1) = true) ∧
      ∃ x', r.res = p.mna *ᵥ x' + p.T + (if p.nonlinear then p.Tx x' else 0) ∧
        (p.mna + (if p.nonlinear then p.J x' else 0)) *ᵥ r.dx = -r.res ∧
        r.x = x' + getTd o r.dx p.locked (r.iteration : Int) • r.dx := by
  obtain ⟨a, b, -, c, x', d1, d2, d3⟩ := loop_spec o t p maxit 0 (x0.getD 0) none (by
    intro d r' e; cases e) (by intro e; exact absurd rfl e) r h
  refine ⟨a, by omega, c, x', d1, d2, ?_⟩
  rw [d3]
  congr 4
  omega

/-- C78: a converged non-linear result is within tolerance, spelled out: every increment and
every residual (of the point the last step started from) is bounded by its tolerance. -/
theorem C78_converged_within_tolerance {m : Nat} (o : Opts K) (t : Tol K) (p : Problem K m)
    (hn : p.nonlinear = true) (maxit : Nat) (x0 : Option (Fin m → K)) (r : Result K m)
    (h : mdnSolver o t p maxit x0 = .ok r) (hc : r.converged = true) (i : Fin m) :
    if i.1 < p.nv - 1 then
      |r.dx i| ≤ t.vea + t.ver * |r.x i + r.dx i| ∧ |r.res i| ≤ t.iea
    else |r.dx i| ≤ t.iea + t.ier * |r.x i + r.dx i| ∧ |r.res i| ≤ t.vea := by
  obtain ⟨-, -, c, -⟩ := C78_report_exact o t p maxit x0 r h
  have := c.1 hc
  simp only [hn, Bool.true_eq_false, false_or] at this
  unfold check at this
  rw [C14_convergence_iff _ _ _ _ _ (by simp) (by simp)] at this
  have := this i.1 (by simp)
  simpa using this

/-- C78: started at an exact solution with a non-singular Jacobian, the solver stays there
and reports convergence at the first iteration (tolerances non-negative). -/
theorem C78_stays_at_solution {m : Nat} (o : Opts K) (t : Tol K) (p : Problem K m)
    (ht : 0 ≤ t.vea ∧ 0 ≤ t.ver ∧ 0 ≤ t.iea ∧ 0 ≤ t.ier) (maxit : Nat) (hm : 0 < maxit)
    (x0 : Fin m → K) (hF : residual p x0 = 0) (hdet : (jac p x0).det ≠ 0) :
    ∃ r, mdnSolver o t p maxit (some x0) = .ok r ∧ r.x = x0 ∧ r.converged = true ∧
      r.iteration = 1 := by
  obtain ⟨k, rfl⟩ : ∃ k, maxit = k + 1 := ⟨maxit - 1, by omega⟩
  have hs : solve (jac p x0) (-residual p x0) = some 0 := by
    unfold solve; rw [if_neg hdet, hF]; simp
  have hck : check t x0 (0 : Fin m → K) 0 (p.nv - 1) = true := by
    have := C14_exact_passes t ht.1 ht.2.1 ht.2.2.1 ht.2.2.2 (List.ofFn x0) (p.nv - 1)
    unfold check
    have e : List.ofFn (0 : Fin m → K) = List.replicate (List.ofFn x0).length 0 := by
      rw [List.length_ofFn]
      exact List.ofFn_const m 0
    rw [e]; exact this
  refine ⟨⟨x0, 0, 0, true, 1⟩, ?_, rfl, rfl, rfl⟩
  unfold mdnSolver loop
  rw [hF] at hs
  simp only [Option.getD_some, hF, hs, smul_zero, add_zero, hck, if_true]
  split <;> rfl

/-- C78: for devices that are affine (`Tx x = A x + b` with Jacobian `A`) and without locked nodes, the first step
leads to the exact solution and the second one confirms it, from any starting point. -/
theorem C78_affine {m : Nat} (o : Opts K) (hd : o.dampFirst = false) (t : Tol K)
    (ht : 0 ≤ t.vea ∧ 0 ≤ t.ver ∧ 0 ≤ t.iea ∧ 0 ≤ t.ier) (p : Problem K m) (hl : p.locked = [])
    (hn : p.nonlinear = true) (A : Matrix (Fin m) (Fin m) K) (b : Fin m → K) (hT : ∀ x, p.Tx x = A *ᵥ x + b)
    (hJ : ∀ x, p.J x = A) (hdet : (p.mna + A).det ≠ 0) (maxit : Nat) (hm : 2 ≤ maxit) (x0 : Option (Fin m → K)) :
    ∃ r, mdnSolver o t p maxit x0 = .ok r ∧ r.converged = true ∧ r.iteration ≤ 2 ∧
      (p.mna + A) *ᵥ r.x + p.T + b = 0 := by
  obtain ⟨k, rfl⟩ : ∃ k, maxit = k + 2 := ⟨maxit - 2, by omega⟩
  have htd : ∀ (dx : Fin m → K) (n : Int), getTd o dx p.locked n = 1 := by
    intro dx n
    simp [getTd, hl, tdFirst, hd]
  have hjac : ∀ x, jac p x = p.mna + A := by
    intro x; simp [jac, hn, hJ]
  have hres : ∀ x, residual p x = (p.mna + A) *ᵥ x + (p.T + b) := by
    intro x
    simp only [residual, hn, if_true, hT, add_mulVec]
    abel
  have hsol : ∀ x, solve (jac p x) (-residual p x) = some ((p.mna + A)⁻¹ *ᵥ (-residual p x)) := by
    intro x; unfold solve; rw [hjac, if_neg hdet]
  have hu : IsUnit (p.mna + A).det := isUnit_iff_ne_zero.2 hdet
  have hnew : ∀ x, residual p (x + (p.mna + A)⁻¹ *ᵥ (-residual p x)) = 0 := by
    intro x
    rw [hres (x + _), mulVec_add, mulVec_mulVec, Matrix.mul_nonsing_inv _ hu, one_mulVec, hres x]
    abel
  set x1 := x0.getD 0 + (p.mna + A)⁻¹ *ᵥ (-residual p (x0.getD 0)) with hx1
  have h1 := hnew (x0.getD 0)
  rw [← hx1] at h1
  have hzero : (p.mna + A) *ᵥ x1 + p.T + b = 0 := by
    rw [add_assoc, ← hres]; exact h1
  unfold mdnSolver loop
  simp only [hsol, htd, one_smul, ← hx1, hn, Bool.not_true, Bool.false_eq_true, if_false]
  by_cases hc : check t x1 ((p.mna + A)⁻¹ *ᵥ (-residual p (x0.getD 0))) (residual p (x0.getD 0)) (p.nv - 1) = true
  · rw [if_pos hc]
    exact ⟨_, rfl, rfl, by simp, hzero⟩
  · rw [if_neg hc]
    have hck : check t x1 (0 : Fin m → K) 0 (p.nv - 1) = true := by
      have := C14_exact_passes t ht.1 ht.2.1 ht.2.2.1 ht.2.2.2 (List.ofFn x1) (p.nv - 1)
      unfold check
      have e : List.ofFn (0 : Fin m → K) = List.replicate (List.ofFn x1).length 0 := by
        rw [List.length_ofFn]
        exact List.ofFn_const m 0
      rw [e]; exact this
    have hs2 : solve (jac p x1) 0 = some 0 := by
      unfold solve; rw [hjac, if_neg hdet, mulVec_zero]
    have hstep : loop o t p (k + 1) (0 + 1) x1
        (some ((p.mna + A)⁻¹ *ᵥ (-residual p (x0.getD 0)), residual p (x0.getD 0))) = .ok ⟨x1, 0, 0, true, 2⟩ := by
      unfold loop
      simp only [h1, neg_zero, hs2, smul_zero, add_zero, hck, if_true, hn, Bool.not_true, Bool.false_eq_true, if_false]
    exact ⟨_, hstep, rfl, le_refl _, hzero⟩

/-- Example for `C78_affine`: a conductance of 2 S given as a device, 1 S as a resistor, 6 A: 2 V after a step. -/
example : ∃ p : Problem ℚ 1, p.nonlinear = true ∧ p.locked = [] ∧ (∀ x, p.Tx x = !![2] *ᵥ x + 0) ∧
    (∀ x, p.J x = !![2]) ∧ (p.mna + !![2]).det ≠ 0 ∧ (p.mna + !![2]) *ᵥ ![2] + p.T + 0 = 0 :=
  ⟨⟨!![1], ![-6], true, fun _ => !![2], fun x => !![2] *ᵥ x, [], 2⟩, rfl, rfl, fun x => by simp, fun _ => rfl,
    by simp; norm_num, by ext i; fin_cases i; simp [vecHead]; norm_num⟩

/-- C78: with `MAXIT = 0` the solver raises (`dx` is unbound). -/
theorem C78_no_iterations {m : Nat} (o : Opts K) (t : Tol K) (p : Problem K m)
    (x0 : Option (Fin m → K)) : mdnSolver o t p 0 x0 = .error .unbound := rfl

/-- Example: a one-node problem satisfying the hypotheses of `C78_stays_at_solution`. -/
example : ∃ p : Problem ℚ 1, p.nonlinear = true ∧ residual p ![2] = 0 ∧ (jac p ![2]).det ≠ 0 :=
  ⟨⟨!![1], ![-6], true, fun x => !![2 * x 0], fun x => ![x 0 * x 0], [(1, 0)], 2⟩, rfl, by
    unfold residual; ext i; fin_cases i; simp [vecHead]; norm_num, by
    unfold jac; simp; norm_num⟩

end Verif.Newton
