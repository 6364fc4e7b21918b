import Verif.Model.DF
import Mathlib.LinearAlgebra.Lagrange
import Mathlib.LinearAlgebra.Vandermonde
import Mathlib.Algebra.Polynomial.Div
import Mathlib.Algebra.Polynomial.Inductions
import Mathlib.Algebra.Polynomial.Derivative
import Mathlib.Algebra.CharZero.Defs
import Mathlib.Tactic.FieldSimp
import Mathlib.Tactic.Ring
import Mathlib.Tactic.LinearCombination
import Mathlib.Tactic.NormNum
import Mathlib.Data.Rat.Defs

/-!
Properties C28 (implicit Euler), C29 (trapezoidal rule), C30 and C31 (Gear), C81 (local
error estimates).
-/

namespace Verif.DF

open Polynomial

variable {K : Type} [Field K]

/-! ### Implicit Euler -/

/-- C28: for an affine waveform the formula gives the derivative and the predictor the next
value, for all steps. -/
theorem C28_affine_exact (t : Nat → K) (h a b : K) (hh : h ≠ 0) (h01 : t 0 ≠ t 1) :
    let w : K → K := fun s => a * s + b
    let r := implicitEuler t (fun k => w (t k)) h
    r.c1 * w (t 0 + h) + r.c0 = a ∧ r.pred = w (t 0 + h) := by
  have : t 0 - t 1 ≠ 0 := sub_ne_zero.2 h01
  simp only [implicitEuler]
  constructor
  · field_simp; ring
  · have e : (a * t 0 + b - (a * t 1 + b)) / (t 0 - t 1) = a := by
      rw [div_eq_iff this]; ring
    rw [e]; ring

/-- C28: the formula does not depend on older points. -/
theorem C28_history_free (t t' x x' : Nat → K) (h : K) (hx : x 0 = x' 0) :
    (implicitEuler t x h).c1 = (implicitEuler t' x' h).c1 ∧
    (implicitEuler t x h).c0 = (implicitEuler t' x' h).c0 := by
  simp [implicitEuler, hx]

example : (implicitEuler (fun k => -(k : ℚ)) (fun k => 3 * -(k : ℚ) + 1) (1/2)).pred = 5/2 := by
  norm_num [implicitEuler]

/-! ### Trapezoidal rule -/

/-- C29: for a quadratic waveform the formula gives the derivative, for all steps. -/
theorem C29_quadratic_derivative [CharZero K] (t : Nat → K) (h a b c : K) (hh : h ≠ 0) :
    let w : K → K := fun s => a * s ^ 2 + b * s + c
    let w' : K → K := fun s => 2 * a * s + b
    let r := trap t (fun k => w (t k)) (fun k => w' (t k)) h
    r.c1 * w (t 0 + h) + r.c0 = w' (t 0 + h) := by
  simp only [trap]
  field_simp
  ring

theorem trapA_det (t : Nat → K) :
    (trapA t).det = (t 1 - t 0) * (t 2 - t 0) * (t 2 - t 1) := by
  rw [Matrix.det_fin_three]
  simp [trapA]
  ring

/-- The coefficients found by inverting `A` are those of the interpolating parabola. -/
theorem trap_alpha (t : Nat → K) (h01 : t 0 ≠ t 1) (h02 : t 0 ≠ t 2) (h12 : t 1 ≠ t 2)
    (c : Fin 3 → K) (z : Fin 3 → K)
    (hz : ∀ i : Fin 3, z i = c 0 + c 1 * (t i - t 0) + c 2 * (t i - t 0) ^ 2) :
    (trapA t)⁻¹.mulVec z = c := by
  have hdet : IsUnit (trapA t).det := by
    rw [trapA_det, isUnit_iff_ne_zero]
    exact mul_ne_zero (mul_ne_zero (sub_ne_zero.2 h01.symm) (sub_ne_zero.2 h02.symm))
      (sub_ne_zero.2 h12.symm)
  have hA : (trapA t).mulVec c = z := by
    funext i
    rw [hz i]
    fin_cases i <;> simp [Matrix.mulVec, dotProduct, Fin.sum_univ_three, trapA] <;> ring
  rw [← hA, Matrix.mulVec_mulVec, Matrix.nonsing_inv_mul _ hdet, Matrix.one_mulVec]

/-- C29: for a quadratic waveform the predictor gives the next value. -/
theorem C29_quadratic_predictor (t dx : Nat → K) (h a b c : K)
    (h01 : t 0 ≠ t 1) (h02 : t 0 ≠ t 2) (h12 : t 1 ≠ t 2) :
    let w : K → K := fun s => a * s ^ 2 + b * s + c
    (trap t (fun k => w (t k)) dx h).pred = w (t 0 + h) := by
  intro w
  have := trap_alpha t h01 h02 h12 ![w (t 0), 2 * a * t 0 + b, a] (fun i : Fin 3 => w (t i))
    (fun i => by simp [w]; ring)
  simp only [trap]
  rw [this]
  simp [w]
  ring

example : ((0 : ℚ) ≠ -1) ∧ ((0 : ℚ) ≠ -3) ∧ ((-1 : ℚ) ≠ -3) := by norm_num

/-! ### Gear -/

theorem foldl_add (n : Nat) (f : Nat → K) (a : K) :
    (List.range n).foldl (fun b i => b + f i) a = a + ∑ i ∈ Finset.range n, f i := by
  induction n with
  | zero => simp
  | succ n ih => rw [List.range_succ, List.foldl_append, ih, Finset.sum_range_succ]; simp [add_assoc]

theorem foldl_sub (n : Nat) (f : Nat → K) (a : K) :
    (List.range n).foldl (fun b i => b - f i) a = a - ∑ i ∈ Finset.range n, f i := by
  induction n with
  | zero => simp
  | succ n ih =>
    rw [List.range_succ, List.foldl_append, ih, Finset.sum_range_succ]
    simp [sub_sub]

theorem foldl_mul (n : Nat) (f : Nat → K) (a : K) :
    (List.range n).foldl (fun b i => b * f i) a = a * ∏ i ∈ Finset.range n, f i := by
  induction n with
  | zero => simp
  | succ n ih => rw [List.range_succ, List.foldl_append, ih, Finset.prod_range_succ]; simp [mul_assoc]

/-- Lagrange basis at zero, for the nodes `s 1, ..., s m`. -/
theorem basis_eval_zero (m : Nat) (s : Nat → K) (i : Nat) :
    (Lagrange.basis (Finset.range m) (fun j => s (j + 1)) i).eval 0 =
      ∏ j ∈ (Finset.range m).erase i, s (j + 1) / (s (j + 1) - s (i + 1)) := by
  unfold Lagrange.basis
  rw [eval_prod]
  apply Finset.prod_congr rfl
  intro j _
  unfold Lagrange.basisDivisor
  simp only [eval_mul, eval_C, eval_sub, eval_X, zero_sub]
  rw [mul_neg, ← neg_mul, ← inv_neg, neg_sub, mul_comm, div_eq_mul_inv]

/-- Interpolating a polynomial of degree less than the number of nodes and evaluating at
zero. -/
theorem interpolate_zero (m : Nat) (s : Nat → K)
    (hs : ∀ i < m, ∀ j < m, s (i + 1) = s (j + 1) → i = j) (q : K[X]) (hq : q.degree < m) :
    q.eval 0 = ∑ i ∈ Finset.range m, q.eval (s (i + 1)) *
      ∏ j ∈ (Finset.range m).erase i, s (j + 1) / (s (j + 1) - s (i + 1)) := by
  have hinj : Set.InjOn (fun j => s (j + 1)) (Finset.range m : Set Nat) := by
    intro i hi j hj e
    exact hs i (by simpa using hi) j (by simpa using hj) e
  have := Lagrange.eq_interpolate (f := q) hinj (by simpa using hq)
  conv_lhs => rw [this]
  rw [Lagrange.interpolate_apply, eval_finset_sum]
  apply Finset.sum_congr rfl
  intro i _
  rw [eval_mul, eval_C, basis_eval_zero]

theorem gearAlpha_eq (n : Nat) (s : Nat → K) (k : Nat) (hk : k < n + 1) :
    gearAlpha n s (k + 1) =
      ∏ j ∈ (Finset.range (n + 1)).erase k, s (j + 1) / (s (j + 1) - s (k + 1)) := by
  unfold gearAlpha
  rw [foldl_mul, one_mul, ← Finset.mul_prod_erase (Finset.range (n + 1)) _ (Finset.mem_range.2 hk)]
  simp only [gearE, if_true, one_mul]
  apply Finset.prod_congr rfl
  intro j hj
  rw [if_neg (by have := Finset.ne_of_mem_erase hj; omega)]

/-- The distances from the new time point to the past ones. -/
theorem gearS_succ (t : Nat → K) (h : K) (k : Nat) : gearS t h (k + 1) = t 0 + h - t k := by
  simp [gearS, add_comm]

/-- Grids the formula is meant for: past times are pairwise different and different from the
new one. -/
def Grid (n : Nat) (t : Nat → K) (h : K) : Prop :=
  (∀ i ≤ n, ∀ j ≤ n, t i = t j → i = j) ∧ ∀ i ≤ n, t i ≠ t 0 + h

theorem gearGamma_eq (n : Nat) (t : Nat → K) (h : K) (hg : Grid n t h) (k : Nat) (hk : k < n) :
    gearGamma n (gearS t h) (k + 1) = -(1 / gearS t h (k + 1)) *
      ∏ j ∈ (Finset.range n).erase k,
        gearS t h (j + 1) / (gearS t h (j + 1) - gearS t h (k + 1)) := by
  have hne : ∀ i ≤ n, gearS t h (i + 1) ≠ 0 := by
    intro i hi
    rw [gearS_succ]
    exact sub_ne_zero.2 (hg.2 i hi).symm
  have hd : gearS t h (n + 1) - gearS t h (k + 1) ≠ 0 := by
    rw [gearS_succ, gearS_succ]
    intro e
    have := hg.1 n (le_refl _) k hk.le (by linear_combination -e)
    omega
  unfold gearGamma
  rw [gearAlpha_eq n _ k (by omega)]
  have herase : (Finset.range (n + 1)).erase k = insert n ((Finset.range n).erase k) := by
    ext j
    simp only [Finset.mem_erase, Finset.mem_range, Finset.mem_insert]
    omega
  rw [herase, Finset.prod_insert (by simp)]
  have h1 := hne k hk.le
  have h2 := hne n (le_refl _)
  field_simp
  ring

theorem gear_c1 (n : Nat) (t x : Nat → K) (h : K) :
    (gear n t x h).c1 = -∑ i ∈ Finset.range n, gearGamma n (gearS t h) (i + 1) := by
  simp only [gear, gearGamma0]
  rw [foldl_sub, zero_sub]

theorem gear_c0 (n : Nat) (t x : Nat → K) (h : K) :
    (gear n t x h).c0 = ∑ i ∈ Finset.range n, gearGamma n (gearS t h) (i + 1) * x i := by
  simp only [gear]
  rw [foldl_add, zero_add]

/-- The formula in terms of the distance `s` to the new time point: minus the first
derivative at zero, for every polynomial of degree at most `n`. -/
theorem gear_core (n : Nat) (t : Nat → K) (h : K) (hg : Grid n t h) (q : K[X])
    (hq : q.degree ≤ n) :
    ∑ i ∈ Finset.range n, gearGamma n (gearS t h) (i + 1) *
      (q.eval (gearS t h (i + 1)) - q.eval 0) = -(q.coeff 1) := by
  have hne : ∀ i ≤ n, gearS t h (i + 1) ≠ 0 := by
    intro i hi
    rw [gearS_succ]
    exact sub_ne_zero.2 (hg.2 i hi).symm
  have hdivX : ∀ z, q.eval z - q.eval 0 = z * q.divX.eval z := by
    intro z
    conv_lhs => rw [← divX_mul_X_add q]
    simp only [eval_add, eval_mul, eval_X, eval_C]
    ring
  have hinj : ∀ i < n, ∀ j < n, gearS t h (i + 1) = gearS t h (j + 1) → i = j := by
    intro i hi j hj e
    rw [gearS_succ, gearS_succ] at e
    exact hg.1 i hi.le j hj.le (by linear_combination -e)
  have hr : q.divX.degree < (n : WithBot ℕ) ∨ n = 0 := by
    rcases Nat.eq_zero_or_pos n with h0 | hpos
    · exact Or.inr h0
    · left
      by_cases hz : q.divX = 0
      · rw [hz, degree_zero]; exact WithBot.bot_lt_coe _
      · rw [← natDegree_lt_iff_degree_lt hz, natDegree_divX_eq_natDegree_tsub_one]
        have : q.natDegree ≤ n := natDegree_le_iff_degree_le.2 hq
        omega
  rcases hr with hr | h0
  · have hint := interpolate_zero n (gearS t h) hinj q.divX hr
    have hc : q.divX.eval 0 = q.coeff 1 := by
      rw [← coeff_zero_eq_eval_zero, coeff_divX]
    rw [← hc, hint, ← Finset.sum_neg_distrib]
    apply Finset.sum_congr rfl
    intro i hi
    have hi' := Finset.mem_range.1 hi
    rw [gearGamma_eq n t h hg i hi', hdivX]
    have := hne i hi'.le
    field_simp
  · subst h0
    have : q.natDegree ≤ 0 := natDegree_le_iff_degree_le.2 (by simpa using hq)
    simp [coeff_eq_zero_of_natDegree_lt (show q.natDegree < 1 by omega)]

/-- C30: for every order, every grid of distinct past points and every polynomial waveform
of degree at most the order, the Gear formula returns the derivative at the new point. -/
theorem C30_polynomials_exact (n : Nat) (t : Nat → K) (h : K) (hg : Grid n t h) (p : K[X])
    (hp : p.degree ≤ n) :
    let r := gear n t (fun k => p.eval (t k)) h
    r.c1 * p.eval (t 0 + h) + r.c0 = p.derivative.eval (t 0 + h) := by
  intro r
  -- the waveform as a function of the distance to the new point
  let q : K[X] := p.comp (C (t 0 + h) - X)
  have hqd : q.degree ≤ n := by
    rw [← natDegree_le_iff_degree_le] at hp ⊢
    calc q.natDegree ≤ p.natDegree * (C (t 0 + h) - X).natDegree := natDegree_comp_le
      _ ≤ n * 1 := Nat.mul_le_mul hp (by
          refine (natDegree_sub_le _ _).trans ?_
          simp)
      _ = n := Nat.mul_one n
  have hev : ∀ k, q.eval (gearS t h (k + 1)) = p.eval (t k) := by
    intro k
    simp only [q, eval_comp, eval_sub, eval_C, eval_X]
    rw [gearS_succ, sub_sub_cancel]
  have hev0 : q.eval 0 = p.eval (t 0 + h) := by simp [q, eval_comp]
  have hc1 : q.coeff 1 = -p.derivative.eval (t 0 + h) := by
    have : q.coeff 1 = q.derivative.eval 0 := by
      rw [← coeff_zero_eq_eval_zero, coeff_derivative]; simp
    rw [this]
    simp [q, derivative_comp, eval_comp]
  have key := gear_core n t h hg q hqd
  rw [hc1, neg_neg] at key
  rw [← key]
  show (gear n t (fun k => p.eval (t k)) h).c1 * p.eval (t 0 + h) +
    (gear n t (fun k => p.eval (t k)) h).c0 = _
  rw [gear_c1, gear_c0, neg_mul, Finset.sum_mul, neg_add_eq_sub, ← Finset.sum_sub_distrib]
  apply Finset.sum_congr rfl
  intro i _
  rw [hev, hev0]
  ring

theorem gear_pred (n : Nat) (t x : Nat → K) (h : K) :
    (gear n t x h).pred = ∑ i ∈ Finset.range (n + 1), gearAlpha n (gearS t h) (i + 1) * x i := by
  simp only [gear]
  rw [foldl_add, zero_add]

theorem grid_inj (n : Nat) (t : Nat → K) (h : K) (hg : ∀ i ≤ n, ∀ j ≤ n, t i = t j → i = j) :
    ∀ i < n + 1, ∀ j < n + 1, gearS t h (i + 1) = gearS t h (j + 1) → i = j := by
  intro i hi j hj e
  rw [gearS_succ, gearS_succ] at e
  exact hg i (by omega) j (by omega) (by linear_combination -e)

/-- C31: the predictor is exact for polynomials of degree at most the order. -/
theorem C31_predictor_exact (n : Nat) (t : Nat → K) (h : K)
    (hg : ∀ i ≤ n, ∀ j ≤ n, t i = t j → i = j) (p : K[X]) (hp : p.degree ≤ n) :
    (gear n t (fun k => p.eval (t k)) h).pred = p.eval (t 0 + h) := by
  let q : K[X] := p.comp (C (t 0 + h) - X)
  have hqd : q.degree < (n + 1 : Nat) := by
    rw [← natDegree_le_iff_degree_le] at hp
    have : q.natDegree ≤ n := by
      calc q.natDegree ≤ p.natDegree * (C (t 0 + h) - X).natDegree := natDegree_comp_le
        _ ≤ n * 1 := Nat.mul_le_mul hp (by
            refine (natDegree_sub_le _ _).trans ?_
            simp)
        _ = n := Nat.mul_one n
    refine lt_of_le_of_lt (degree_le_of_natDegree_le this) ?_
    exact_mod_cast Nat.lt_succ_self n
  have hev : ∀ k, q.eval (gearS t h (k + 1)) = p.eval (t k) := by
    intro k
    simp only [q, eval_comp, eval_sub, eval_C, eval_X]
    rw [gearS_succ, sub_sub_cancel]
  have hev0 : q.eval 0 = p.eval (t 0 + h) := by simp [q, eval_comp]
  rw [← hev0, interpolate_zero (n + 1) (gearS t h) (grid_inj n t h hg) q hqd, gear_pred]
  apply Finset.sum_congr rfl
  intro i hi
  rw [gearAlpha_eq n _ i (Finset.mem_range.1 hi), hev]
  ring

/-- A non-uniform grid that meets the hypotheses, for every order. -/
example (n : Nat) : Grid n (fun k => -((k : ℚ) * (k + 1))) (1/2) := by
  constructor
  · intro i _ j _ e
    have h1 : (i : ℚ) * (i + 1) = j * (j + 1) := by linear_combination -e
    have h2 : i * (i + 1) = j * (j + 1) := by exact_mod_cast h1
    rcases Nat.lt_trichotomy i j with h | h | h
    · have := Nat.mul_lt_mul'' h (Nat.succ_lt_succ h)
      simp only [Nat.succ_eq_add_one] at this
      omega
    · exact h
    · have := Nat.mul_lt_mul'' h (Nat.succ_lt_succ h)
      simp only [Nat.succ_eq_add_one] at this
      omega
  · intro i _ e
    have : (0 : ℚ) ≤ (i : ℚ) * (i + 1) := mul_nonneg (Nat.cast_nonneg _) (by
      have := Nat.cast_nonneg (α := ℚ) i
      exact add_nonneg this zero_le_one)
    have h2 : (i : ℚ) * (i + 1) = -(1/2) := by
      simp only [Nat.cast_zero, zero_mul, neg_zero, zero_add] at e
      linear_combination -e
    rw [h2] at this
    norm_num at this

/-! ### Local error estimates

The analysis takes `|lte|` as the error of the accepted value. With the exact derivative at
the new point, the formula determines a value `x1`; the estimate is right if it equals
`x1` minus the exact value, for waveforms one degree above those integrated exactly. -/

/-- C81, trapezoidal rule: exact for cubics. -/
theorem C81_trap_estimate [CharZero K] (t : Nat → K) (h a b c d x1 : K) (hh : h ≠ 0)
    (h01 : t 0 ≠ t 1) (h02 : t 0 ≠ t 2) (h12 : t 1 ≠ t 2)
    (hden : (1 : K) / 12 * h ^ 3 ≠ -1 / 6 * h * (t 0 + h - t 1) * (t 0 + h - t 2)) :
    let w : K → K := fun s => a * s ^ 3 + b * s ^ 2 + c * s + d
    let w' : K → K := fun s => 3 * a * s ^ 2 + 2 * b * s + c
    let r := trap t (fun k => w (t k)) (fun k => w' (t k)) h
    r.c1 * x1 + r.c0 = w' (t 0 + h) → lte r x1 = x1 - w (t 0 + h) := by
  intro w w' r hx
  -- the predictor: interpolating parabola
  have hA := trap_alpha t h01 h02 h12
    ![w (t 0), w' (t 0) - a * (t 1 - t 0) * (t 2 - t 0),
      3 * a * t 0 + b + a * ((t 1 - t 0) + (t 2 - t 0))] (fun i : Fin 3 => w (t i))
    (fun i => by fin_cases i <;> simp [w, w'] <;> ring)
  have hpred : r.pred - w (t 0 + h) =
      -1 * a * h * (t 0 + h - t 1) * (t 0 + h - t 2) := by
    simp only [r, trap]
    rw [hA]
    simp [w, w']
    ring
  have hx1 : x1 - w (t 0 + h) = a * h ^ 3 / 2 := by
    simp only [r, trap, w, w'] at hx ⊢
    field_simp at hx ⊢
    linear_combination hx
  have hden' : r.predLte - r.xLte ≠ 0 := sub_ne_zero.2 (fun e => hden e.symm)
  have hP : r.pred - w (t 0 + h) = 6 * a * r.predLte := by
    rw [hpred]; simp only [r, trap]; ring
  have hX : x1 - w (t 0 + h) = 6 * a * r.xLte := by
    rw [hx1]; simp only [r, trap]; ring
  unfold lte
  have : r.pred - x1 = 6 * a * (r.predLte - r.xLte) := by linear_combination hP - hX
  rw [this, hX]
  field_simp

theorem gear_predLte (n : Nat) (t x : Nat → K) (h : K) :
    (gear n t x h).predLte = -1 / (Nat.factorial (n + 1) : K) *
      ∏ i ∈ Finset.range (n + 1), gearS t h (i + 1) := by
  simp only [gear]
  rw [foldl_mul]

theorem gear_xLte (n : Nat) (t x : Nat → K) (h : K) :
    (gear n t x h).xLte = (-1) ^ (n + 1) * (1 / (Nat.factorial (n + 1) : K)) *
      ∑ i ∈ Finset.range n, gearS t h (i + 1) ^ (n + 1) *
        (-1 * gearGamma n (gearS t h) (i + 1) / gearGamma0 n (gearS t h)) := by
  simp only [gear]
  rw [foldl_add, zero_add]

/-- Extrapolating `s^(n+1)` from `n+1` nodes to zero. -/
theorem extrapolate_power (n : Nat) (s : Nat → K)
    (hs : ∀ i < n + 1, ∀ j < n + 1, s (i + 1) = s (j + 1) → i = j) :
    ∑ i ∈ Finset.range (n + 1), gearAlpha n s (i + 1) * s (i + 1) ^ (n + 1) =
      (-1) ^ n * ∏ i ∈ Finset.range (n + 1), s (i + 1) := by
  obtain ⟨N, hmon, hNd, hN0, hNz⟩ : ∃ N : K[X], N.Monic ∧ N.degree = ((n + 1 : ℕ) : WithBot ℕ) ∧
      (∀ i ∈ Finset.range (n + 1), N.eval (s (i + 1)) = 0) ∧
      N.eval 0 = (-1) ^ (n + 1) * ∏ i ∈ Finset.range (n + 1), s (i + 1) := by
    refine ⟨Lagrange.nodal (Finset.range (n + 1)) (fun j => s (j + 1)), Lagrange.nodal_monic .., ?_,
      fun i hi => Lagrange.eval_nodal_at_node (v := fun j => s (j + 1)) hi, ?_⟩
    · rw [Lagrange.degree_nodal, Finset.card_range]
    · rw [Lagrange.eval_nodal]
      simp only [zero_sub, Finset.prod_neg, Finset.card_range]
  have hX : ((X : K[X]) ^ (n + 1)).degree = ((n + 1 : ℕ) : WithBot ℕ) := degree_X_pow _
  have hdeg : ((X : K[X]) ^ (n + 1) - N).degree < ((n + 1 : ℕ) : WithBot ℕ) := by
    rw [← hX]
    refine degree_sub_lt_left (hX.trans hNd.symm) (pow_ne_zero _ X_ne_zero) ?_
    rw [(monic_X_pow (R := K) (n + 1)).leadingCoeff, hmon.leadingCoeff]
  have hint := interpolate_zero (n + 1) s hs _ hdeg
  have hl : ((X : K[X]) ^ (n + 1) - N).eval 0 =
      (-1) ^ n * ∏ i ∈ Finset.range (n + 1), s (i + 1) := by
    rw [eval_sub, hNz, eval_pow, eval_X, zero_pow (Nat.succ_ne_zero n), pow_succ]
    ring
  rw [← hl, hint]
  apply Finset.sum_congr rfl
  intro i hi
  rw [gearAlpha_eq n s i (Finset.mem_range.1 hi), eval_sub, hN0 i hi, eval_pow, eval_X, sub_zero,
    mul_comm]

/-- C81, Gear: for every order `n`, grid and polynomial of degree at most `n + 1`, the
estimate equals the error of the value the formula determines. -/
theorem C81_gear_estimate [CharZero K] (n : Nat) (t : Nat → K) (h : K) (hg : Grid n t h)
    (p : K[X]) (hp : p.degree ≤ (n + 1 : Nat)) (x1 : K) :
    let r := gear n t (fun k => p.eval (t k)) h
    r.c1 ≠ 0 → r.predLte ≠ r.xLte →
    r.c1 * x1 + r.c0 = p.derivative.eval (t 0 + h) → lte r x1 = x1 - p.eval (t 0 + h) := by
  intro r hc1 hden hx
  set a := p.coeff (n + 1) with ha
  set tn := t 0 + h with htn
  -- split off the top power around the new point
  let low : K[X] := p - C a * (X - C tn) ^ (n + 1)
  have hlow : low.degree ≤ n := by
    have hmon : ((X - C tn : K[X]) ^ (n + 1)).Monic := (monic_X_sub_C tn).pow _
    have hnd : ((X - C tn : K[X]) ^ (n + 1)).natDegree = n + 1 := by
      rw [(monic_X_sub_C tn).natDegree_pow, natDegree_X_sub_C, mul_one]
    rw [degree_le_iff_coeff_zero]
    intro m hm
    have hm' : n < m := by exact_mod_cast hm
    simp only [low, coeff_sub, coeff_C_mul]
    rcases Nat.lt_or_ge (n + 1) m with hgt | hle
    · have h1 : p.coeff m = 0 := by
        apply coeff_eq_zero_of_degree_lt
        refine lt_of_le_of_lt hp ?_
        exact_mod_cast hgt
      rw [h1, coeff_eq_zero_of_natDegree_lt (by rw [hnd]; exact hgt)]
      simp
    · have hmn : m = n + 1 := by omega
      subst hmn
      have h2 : ((X - C tn : K[X]) ^ (n + 1)).coeff (n + 1) = 1 := by
        have := hmon.coeff_natDegree
        rwa [hnd] at this
      rw [h2, ← ha]; ring
  have hpev : ∀ z, p.eval z = low.eval z + a * (z - tn) ^ (n + 1) := by
    intro z; simp [low]
  have hder : p.derivative.eval tn = low.derivative.eval tn ∨ n = 0 := by
    rcases Nat.eq_zero_or_pos n with h0 | hpos
    · exact Or.inr h0
    · left
      simp only [low, derivative_sub, derivative_mul, derivative_C, zero_mul, zero_add, eval_sub,
        eval_mul, eval_C, derivative_X_sub_C_pow, eval_pow, eval_X, sub_self]
      rw [Nat.add_sub_cancel, zero_pow (by omega)]
      simp
  have hder : p.derivative.eval tn = low.derivative.eval tn := by
    rcases hder with h | h0
    · exact h
    · exfalso
      apply hc1
      simp only [r, gear_c1, h0, Finset.range_zero, Finset.sum_empty, neg_zero]
  have hs : ∀ k, t k - tn = -gearS t h (k + 1) := by
    intro k; rw [gearS_succ, htn]; ring
  have hfac : ((Nat.factorial (n + 1) : Nat) : K) ≠ 0 := by
    exact_mod_cast Nat.factorial_ne_zero (n + 1)
  -- the predictor
  have hpred : r.pred - p.eval tn = (Nat.factorial (n + 1) : K) * a * r.predLte := by
    have h1 := C31_predictor_exact n t h hg.1 low hlow
    have h2 := extrapolate_power n (gearS t h) (grid_inj n t h hg.1)
    simp only [r]
    rw [gear_pred, gear_predLte]
    rw [gear_pred] at h1
    have e : ∑ i ∈ Finset.range (n + 1), gearAlpha n (gearS t h) (i + 1) * p.eval (t i) =
        ∑ i ∈ Finset.range (n + 1), gearAlpha n (gearS t h) (i + 1) * low.eval (t i) +
        (-1) ^ (n + 1) * a * ∑ i ∈ Finset.range (n + 1),
          gearAlpha n (gearS t h) (i + 1) * gearS t h (i + 1) ^ (n + 1) := by
      rw [Finset.mul_sum, ← Finset.sum_add_distrib]
      apply Finset.sum_congr rfl
      intro i _
      rw [hpev, hs, neg_pow]; ring
    rw [e, h1, h2, hpev tn, ← htn]
    have hsq : ((-1 : K)) ^ n * (-1) ^ n = 1 := by rw [← mul_pow]; simp
    rw [sub_self, zero_pow (by omega : n + 1 ≠ 0)]
    field_simp
    rw [pow_succ]
    linear_combination (-a * ∏ i ∈ Finset.range (n + 1), gearS t h (i + 1)) * hsq
  -- the formula
  have hxe : x1 - p.eval tn = (Nat.factorial (n + 1) : K) * a * r.xLte := by
    have h1 := C30_polynomials_exact n t h hg low hlow
    simp only [← htn] at h1
    rw [← hder, ← hx] at h1
    have hc1' : (gear n t (fun k => low.eval (t k)) h).c1 = r.c1 := by
      simp only [r]; rw [gear_c1, gear_c1]
    have hc0 : r.c0 = (gear n t (fun k => low.eval (t k)) h).c0 +
        (-1) ^ (n + 1) * a * ∑ i ∈ Finset.range n,
          gearGamma n (gearS t h) (i + 1) * gearS t h (i + 1) ^ (n + 1) := by
      simp only [r]
      rw [gear_c0, gear_c0, Finset.mul_sum, ← Finset.sum_add_distrib]
      apply Finset.sum_congr rfl
      intro i _
      rw [hpev, hs, neg_pow]; ring
    have hg0 : gearGamma0 n (gearS t h) = r.c1 := rfl
    have hxl : r.c1 * ((Nat.factorial (n + 1) : K) * a * r.xLte) =
        -((-1) ^ (n + 1) * a * ∑ i ∈ Finset.range n,
          gearGamma n (gearS t h) (i + 1) * gearS t h (i + 1) ^ (n + 1)) := by
      have e : r.xLte = (-1) ^ (n + 1) * (1 / (Nat.factorial (n + 1) : K)) *
          (-(1 / r.c1) * ∑ i ∈ Finset.range n,
            gearGamma n (gearS t h) (i + 1) * gearS t h (i + 1) ^ (n + 1)) := by
        simp only [r]
        rw [gear_xLte]
        congr 1
        rw [Finset.mul_sum]
        apply Finset.sum_congr rfl
        intro i _
        rw [hg0]
        ring
      rw [e]
      field_simp
    rw [hc1', hc0] at h1
    have hpl : p.eval tn = low.eval tn := by
      rw [hpev]; simp
    apply mul_left_cancel₀ hc1
    rw [hxl, hpl]
    linear_combination -h1
  unfold lte
  have hden' : r.predLte - r.xLte ≠ 0 := sub_ne_zero.2 hden
  have : r.pred - x1 = (Nat.factorial (n + 1) : K) * a * (r.predLte - r.xLte) := by
    linear_combination hpred - hxe
  rw [this, hxe]
  field_simp

/-- Example: second order on the grid 0, -1, -3 with step 1/2. -/
example :
    (gear 2 (fun k => -((k : ℚ) * (k + 1)) / 2) (fun _ => 0) (1/2)).c1 ≠ 0 ∧
    (gear 2 (fun k => -((k : ℚ) * (k + 1)) / 2) (fun _ => 0) (1/2)).predLte ≠
      (gear 2 (fun k => -((k : ℚ) * (k + 1)) / 2) (fun _ => 0) (1/2)).xLte := by
  decide +kernel

/-- C81 for implicit Euler: the coefficient of the formula lacks a factor `h`. For the
waveform `s^2` with equal steps of 1/10 the true error is 1/100 and the estimate is 1/40. -/
theorem C81_euler_refuted :
    let t : Nat → ℚ := fun k => -(k : ℚ) / 10
    let r := implicitEuler t (fun k => t k ^ 2) (1/10)
    let x1 : ℚ := 2/100
    r.c1 * x1 + r.c0 = 2 * (1/10) ∧ x1 - (1/10) ^ 2 = 1/100 ∧ lte r x1 ≠ 1/100 ∧
      lte r x1 = 1/40 := by
  norm_num [implicitEuler, lte]

end Verif.DF
