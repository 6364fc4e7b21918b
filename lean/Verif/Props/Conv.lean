import Verif.Model.Conv
import Mathlib.Tactic.Linarith
import Mathlib.Tactic.NormNum
import Mathlib.Data.Rat.Defs
import Mathlib.Algebra.Order.Ring.Rat

/-!
Property C14: the convergence test. C77: its report by node.
-/

namespace Verif.Conv

variable {K : Type} [Field K] [LinearOrder K] [IsStrictOrderedRing K]

theorem customCheck_iff (x dx res : List K) (er ea eres : K) (hd : dx.length = x.length)
    (hr : res.length = x.length) :
    customCheck x dx res er ea eres = true ↔
      ∀ i (hi : i < x.length), |dx[i]'(by omega)| ≤ ea + er * |x[i] + dx[i]'(by omega)| ∧
        |res[i]'(by omega)| ≤ eres := by
  unfold customCheck
  by_cases h0 : x.length = 0
  · simp only [h0, ne_eq, not_true_eq_false, if_false, true_iff]
    intro i hi; omega
  · simp only [ne_eq, h0, not_false_eq_true, if_true, Bool.and_eq_true, allclose,
      List.all_eq_true, decide_eq_true_eq]
    constructor
    · rintro ⟨h1, h2⟩ i hi
      constructor
      · have := h1 (x[i], x[i] + dx[i]'(by omega)) (by
          rw [List.mem_iff_getElem]
          exact ⟨i, by simp; omega, by simp⟩)
        simpa using this
      · have := h2 (res[i]'(by omega), 0) (by
          rw [List.mem_iff_getElem]
          exact ⟨i, by simp; omega, by simp⟩)
        simpa using this
    · intro h
      constructor
      · intro p hp
        obtain ⟨i, hi, rfl⟩ := List.mem_iff_getElem.1 hp
        simp at hi
        have := (h i (by omega)).1
        simpa using this
      · intro p hp
        obtain ⟨i, hi, rfl⟩ := List.mem_iff_getElem.1 hp
        simp at hi
        have := (h i (by omega)).2
        simpa using this

theorem customFull_fst (x dx res : List K) (er ea eres : K) :
    (customFull x dx res er ea eres false).1 = customCheck x dx res er ea eres := by
  unfold customFull customCheck
  split <;> rfl

/-- C14: `convergence_check` succeeds iff each of the first `n` unknowns meets the voltage
tolerances and every further one meets the current tolerances, together with the residuals
(currents for the former, voltages for the latter). -/
theorem C14_convergence_iff (t : Tol K) (x dx res : List K) (n : Nat)
    (hd : dx.length = x.length) (hr : res.length = x.length) :
    convergenceCheck t x dx res n = true ↔
      ∀ i (hi : i < x.length),
        if i < n then
          |dx[i]'(by omega)| ≤ t.vea + t.ver * |x[i] + dx[i]'(by omega)| ∧
            |res[i]'(by omega)| ≤ t.iea
        else
          |dx[i]'(by omega)| ≤ t.iea + t.ier * |x[i] + dx[i]'(by omega)| ∧
            |res[i]'(by omega)| ≤ t.vea := by
  unfold convergenceCheck convergenceFull voltageFull currentFull
  simp only [customFull_fst]
  rw [Bool.and_eq_true, customCheck_iff _ _ _ _ _ _ (by simp [hd]) (by simp [hr]),
    customCheck_iff _ _ _ _ _ _ (by simp [hd]) (by simp [hr])]
  constructor
  · rintro ⟨h1, h2⟩ i hi
    split
    · rename_i hin
      have := h1 i (by simp; omega)
      simpa using this
    · rename_i hin
      have := h2 (i - n) (by simp; omega)
      have e : n + (i - n) = i := by omega
      simpa [e] using this
  · intro h
    constructor
    · intro i hi
      simp at hi
      have := h i hi.2
      rw [if_pos hi.1] at this
      simpa using this
    · intro i hi
      simp at hi
      have := h (n + i) (by omega)
      rw [if_neg (by omega)] at this
      simpa using this

/-- C14: one offending unknown anywhere is enough for `False`. -/
theorem C14_single_offender (t : Tol K) (x dx res : List K) (n : Nat)
    (hd : dx.length = x.length) (hr : res.length = x.length) (i : Nat) (hi : i < x.length)
    (hbad : (i < n ∧ (t.vea + t.ver * |x[i] + dx[i]'(by omega)| < |dx[i]'(by omega)| ∨
        t.iea < |res[i]'(by omega)|)) ∨
      (n ≤ i ∧ (t.iea + t.ier * |x[i] + dx[i]'(by omega)| < |dx[i]'(by omega)| ∨
        t.vea < |res[i]'(by omega)|))) :
    convergenceCheck t x dx res n = false := by
  rw [← Bool.not_eq_true, C14_convergence_iff t x dx res n hd hr]
  intro h
  have := h i hi
  rcases hbad with ⟨hin, hb⟩ | ⟨hin, hb⟩
  · rw [if_pos hin] at this
    rcases hb with hb | hb
    · exact absurd this.1 (not_le.2 hb)
    · exact absurd this.2 (not_le.2 hb)
  · rw [if_neg (by omega)] at this
    rcases hb with hb | hb
    · exact absurd this.1 (not_le.2 hb)
    · exact absurd this.2 (not_le.2 hb)

/-- C14: tighter tolerances never turn `False` into `True`. -/
theorem C14_monotone (t t' : Tol K) (h1 : t.vea ≤ t'.vea) (h2 : t.ver ≤ t'.ver)
    (h3 : t.iea ≤ t'.iea) (h4 : t.ier ≤ t'.ier) (x dx res : List K) (n : Nat)
    (hd : dx.length = x.length) (hr : res.length = x.length)
    (h : convergenceCheck t x dx res n = true) : convergenceCheck t' x dx res n = true := by
  rw [C14_convergence_iff _ _ _ _ _ hd hr] at *
  intro i hi
  have := h i hi
  by_cases hin : i < n
  · rw [if_pos hin] at *
    refine ⟨this.1.trans ?_, this.2.trans h3⟩
    have := mul_le_mul_of_nonneg_right h2 (abs_nonneg (x[i] + dx[i]'(by omega)))
    linarith
  · rw [if_neg hin] at *
    refine ⟨this.1.trans ?_, this.2.trans h1⟩
    have := mul_le_mul_of_nonneg_right h4 (abs_nonneg (x[i] + dx[i]'(by omega)))
    linarith

/-- C14: with non-negative tolerances an exact solution (no increment, no residual) passes. -/
theorem C14_exact_passes (t : Tol K) (h1 : 0 ≤ t.vea) (h2 : 0 ≤ t.ver)
    (h3 : 0 ≤ t.iea) (h4 : 0 ≤ t.ier) (x : List K) (n : Nat) :
    convergenceCheck t x (List.replicate x.length 0) (List.replicate x.length 0) n = true := by
  rw [C14_convergence_iff _ _ _ _ _ (by simp) (by simp)]
  intro i hi
  have a := mul_nonneg h2 (abs_nonneg x[i])
  have b := mul_nonneg h4 (abs_nonneg x[i])
  split <;> simp <;> constructor <;> linarith

example : convergenceCheck (⟨1/1000000, 1/1000, 1/1000000000, 1/1000⟩ : Tol ℚ)
    [5, 1/100] [1/1000, 1/1000000] [1/10000000000, 1/10000000] 1 = true := by decide +kernel
example : convergenceCheck (⟨1/1000000, 1/1000, 1/1000000000, 1/1000⟩ : Tol ℚ)
    [5, 1/100] [1/1000, 1/1000] [0, 0] 1 = false := by decide +kernel

/-- C77 (what the code does instead): the report by node is always empty, and the flag does
not depend on `debug`. -/
theorem C77_by_node_empty_partial (t : Tol K) (x dx res : List K) (n : Nat) (debug : Bool) :
    (convergenceFull t x dx res n debug).2 = [] ∧
      (convergenceFull t x dx res n debug).1 = convergenceCheck t x dx res n := by
  refine ⟨?_, rfl⟩
  have h : ∀ (x dx res : List K) (er ea eres : K), (customFull x dx res er ea eres false).2 = [] := by
    intro x dx res er ea eres
    unfold customFull
    split <;> rfl
  simp only [convergenceFull, voltageFull, currentFull, h, List.append_nil]

/-- C77: the debug loop of `custom_convergence_check` is strict (`<`) and uses `|x|` where
the normal test is non-strict and uses `|x+dx|`: what passes the strict test with a
non-shrinking update also passes the normal one. -/
theorem C77_debug_stricter_partial (x dx res : List K) (er ea eres : K) (he : 0 ≤ er)
    (hd : dx.length = x.length) (hr : res.length = x.length)
    (hgrow : ∀ i (hi : i < x.length), |x[i]| ≤ |x[i] + dx[i]'(by omega)|)
    (h : (customCheckDebug x dx res er ea eres).1 = true) :
    customCheck x dx res er ea eres = true := by
  rw [customCheck_iff _ _ _ _ _ _ hd hr]
  have key : ∀ (x dx res : List K), dx.length = x.length → res.length = x.length →
      (customCheckDebugLoop er ea eres x dx res).contains false = false →
      ∀ i (hi : i < x.length) (hi' : i < dx.length) (hi'' : i < res.length),
        |dx[i]| < er * |x[i]| + ea ∧ |res[i]| < eres := by
    intro x
    induction x with
    | nil => intro dx res _ _ _ i hi; simp at hi
    | cons a x ih =>
      intro dx res hd hr h i hi hi' hi''
      cases dx with
      | nil => simp at hd
      | cons d dx =>
        cases res with
        | nil => simp at hr
        | cons r res =>
          simp only [customCheckDebugLoop] at h
          split at h
          · rename_i hok
            cases i with
            | zero => simpa using hok
            | succ i =>
              simp only [List.getElem_cons_succ]
              apply ih dx res (by simpa using hd) (by simpa using hr)
              simpa using h
          · simp at h
  intro i hi
  have hk := key x dx res hd hr (by simpa [customCheckDebug] using h) i hi (by omega) (by omega)
  have hg := mul_le_mul_of_nonneg_left (hgrow i hi) he
  constructor
  · linarith [hk.1]
  · exact hk.2.le

/-- C77 is false: the report by node of `convergence_check` is empty whatever happens, also
with `debug=True` and unknowns that fail. -/
theorem C77_by_node_refuted :
    ∃ (t : Tol ℚ) (x dx res : List ℚ) (n : Nat), convergenceCheck t x dx res n = false ∧
      (convergenceFull t x dx res n true).2 = [] ∧
      (customCheckDebug x dx res t.ver t.vea t.iea).2 ≠ [] :=
  ⟨⟨1/1000000, 1/1000, 1/1000000000, 1/1000⟩, [1, 2], [1, 0], [0, 0], 2, by decide +kernel⟩

/-- Example for the hypotheses of `C77_debug_stricter_partial`. -/
example : (customCheckDebug [1, 2] [1/1000, 0] [0, 0] (1/100) (1/1000) (1 : ℚ)).1 = true := by
  decide +kernel

end Verif.Conv
