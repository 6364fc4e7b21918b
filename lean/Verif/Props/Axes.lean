import Verif.Model.Axes
import Mathlib.Tactic.Linarith
import Mathlib.Tactic.FieldSimp
import Mathlib.Tactic.Ring
import Mathlib.Tactic.NormNum
import Mathlib.Tactic.Positivity

/-!
Properties C19 (linear axes) and C20 (logarithmic axes).
-/

namespace Verif.Axes

section
variable {K : Type} [Field K] [LinearOrder K] [IsStrictOrderedRing K]

/-- A linear axis yields `min + i*inc` for `i = 0` and for `0 < i < points`. -/
theorem lin_collect (a : Axis K) (i fuel : Nat) (hi : a.index = i)
    (hc : a.current = a.min + (i - 1 : Nat) * a.inc) (n : Nat) (hin : i ≤ n) (hn1 : 1 ≤ n)
    (hlt : ∀ j : Nat, 1 ≤ j → j < n → (j : K) < a.points) (hge : a.points ≤ (n : K))
    (hf : n - i < fuel) :
    collect linNext fuel a = (List.range' i (n - i)).map (fun j : Nat => a.min + (j : K) * a.inc) := by
  induction fuel generalizing a i with
  | zero => omega
  | succ fuel ih =>
    unfold collect
    by_cases h0 : i = 0
    · subst h0
      have e : linNext a = some (a.current, { a with index := a.index + 1 }) := by
        simp [linNext, hi]
      rw [e]
      simp only
      rw [ih { a with index := a.index + 1 } 1 (by simp [hi]) (by simpa using hc) (by omega)
        (by simpa using hlt) (by simpa using hge) (by omega)]
      rw [show n - 0 = (n - 1) + 1 by omega, List.range'_succ]
      simp [hc]
    · by_cases hlast : i = n
      · have : ¬ (a.index : K) < a.points := by rw [hi, hlast]; exact not_lt.2 hge
        have e : linNext a = none := by
          unfold linNext
          rw [if_neg (by omega), if_neg this]
        rw [e, hlast]; simp
      · have hlt' : (a.index : K) < a.points := by rw [hi]; exact hlt i (by omega) (by omega)
        have e : linNext a = some (a.current + a.inc,
            { a with current := a.current + a.inc, index := a.index + 1 }) := by
          unfold linNext
          rw [if_neg (by omega), if_pos hlt']
        rw [e]
        simp only
        have hcur : a.current + a.inc = a.min + (i : K) * a.inc := by
          rw [hc, Nat.cast_sub (by omega)]; push_cast; ring
        rw [ih { a with current := a.current + a.inc, index := a.index + 1 } (i + 1)
          (by simp [hi]) (by simpa using hcur) (by omega) (by simpa using hlt)
          (by simpa using hge) (by omega)]
        rw [show n - i = (n - (i + 1)) + 1 by omega, List.range'_succ]
        simp [hcur]

theorem linInit_ok (min max : K) (N : Nat) (hN : 2 ≤ N) :
    linInit min max (N : K) = some ⟨(max - min) / ((N : K) - 1), max, min, 0, min, N⟩ := by
  have h2 : (2 : K) ≤ N := by exact_mod_cast hN
  have h1 : (1 : K) < N := by linarith
  unfold linInit
  rw [if_neg (by rintro ⟨h, -⟩; linarith), if_neg (by linarith)]
  simp [h1]

/-- C19: a linear axis with `N >= 2` points yields exactly the `N` values
`min + i*(max-min)/(N-1)`. -/
theorem C19_values (min max : K) (N : Nat) (hN : 2 ≤ N) (fuel : Nat) (hf : N < fuel) :
    ∃ a, linInit min max (N : K) = some a ∧
      collect linNext fuel a =
        (List.range N).map (fun i : Nat => min + (i : K) * ((max - min) / ((N : K) - 1))) := by
  refine ⟨_, linInit_ok min max N hN, ?_⟩
  rw [lin_collect _ 0 fuel rfl (by simp) N (by omega) (by omega)
    (fun j _ hj => by show (j : K) < (N : K); exact_mod_cast hj) (le_refl _) (by omega)]
  simp [List.range_eq_range']

/-- C19: number of values, first, last, equal differences, all within the end points, and
agreement with indexing. -/
theorem C19_linear_axis (min max : K) (N : Nat) (hN : 2 ≤ N) (fuel : Nat) (hf : N < fuel) :
    ∃ a, linInit min max (N : K) = some a ∧
      let l := collect linNext fuel a
      l.length = N ∧ l[0]? = some min ∧ l[N - 1]? = some max ∧
      (∀ i x y, l[i]? = some x → l[i + 1]? = some y → y - x = (max - min) / ((N : K) - 1)) ∧
      (∀ x ∈ l, (min ≤ max → min ≤ x ∧ x ≤ max) ∧ (max ≤ min → max ≤ x ∧ x ≤ min)) ∧
      (∀ i, linGet a i = l[i]?) := by
  obtain ⟨a, ha, hl⟩ := C19_values min max N hN fuel hf
  refine ⟨a, ha, ?_⟩
  have hN1 : (0 : K) < (N : K) - 1 := by
    have : (2 : K) ≤ N := by exact_mod_cast hN
    linarith
  have hget : ∀ i, (collect linNext fuel a)[i]? = if i < N then
      some (min + (i : K) * ((max - min) / ((N : K) - 1))) else none := by
    intro i
    rw [hl]
    split
    · rename_i h; simp [h]
    · rename_i h; simp; omega
  refine ⟨by rw [hl]; simp, ?_, ?_, ?_, ?_, ?_⟩
  · rw [hget, if_pos (by omega)]; simp
  · rw [hget, if_pos (by omega)]
    congr 1
    rw [Nat.cast_sub (by omega)]
    push_cast
    field_simp
    ring
  · intro i x y hx hy
    rw [hget] at hx hy
    split at hx <;> split at hy <;> simp only [Option.some.injEq, reduceCtorEq] at hx hy
    rw [← hx, ← hy]; push_cast; ring
  · intro x hx
    rw [hl] at hx
    obtain ⟨i, hi, rfl⟩ := List.mem_map.1 hx
    rw [List.mem_range] at hi
    have h0 : (0 : K) ≤ (i : K) := by positivity
    have h1 : (i : K) ≤ (N : K) - 1 := by
      have : (i : K) + 1 ≤ N := by exact_mod_cast hi
      linarith
    have hq : (i : K) * ((max - min) / ((N : K) - 1)) = (i : K) / ((N : K) - 1) * (max - min) := by
      field_simp
    have q0 : 0 ≤ (i : K) / ((N : K) - 1) := div_nonneg h0 hN1.le
    have q1 : (i : K) / ((N : K) - 1) ≤ 1 := by rw [div_le_one hN1]; exact h1
    rw [hq]
    constructor
    · intro hm
      have := mul_nonneg q0 (sub_nonneg.2 hm)
      have := mul_le_mul_of_nonneg_right q1 (sub_nonneg.2 hm)
      constructor <;> linarith
    · intro hm
      have := mul_nonneg q0 (sub_nonneg.2 hm)
      have := mul_le_mul_of_nonneg_right q1 (sub_nonneg.2 hm)
      constructor <;> nlinarith
  · intro i
    rw [hget]
    rw [linInit_ok min max N hN] at ha
    cases ha
    unfold linGet
    simp only [Nat.cast_lt]
    split
    · congr 1; ring
    · rfl

omit [IsStrictOrderedRing K] in
/-- C19: the constructor refuses what cannot be an axis: fewer than two points between
different end points, or fewer than one point. -/
theorem C19_refused (min max points : K) :
    linInit min max points = none ↔ (points < 2 ∧ min ≠ max) ∨ points < 1 := by
  unfold linInit
  split
  · rename_i h; simp [h]
  · rename_i h
    split
    · rename_i h1; simp [h1]
    · rename_i h1
      simp only [reduceCtorEq, false_iff, not_or]
      exact ⟨h, h1⟩

end

/-- A logarithmic axis yields `min * inc^i`. -/
theorem log_collect (a : Axis ℝ) (i fuel : Nat) (hi : a.index = i)
    (hc : a.current = a.min * a.inc ^ (i - 1)) (n : Nat) (hin : i ≤ n) (hn1 : 1 ≤ n)
    (hlt : ∀ j : Nat, 1 ≤ j → j < n → (j : ℝ) < a.points) (hge : a.points ≤ (n : ℝ))
    (hf : n - i < fuel) :
    collect logNext fuel a = (List.range' i (n - i)).map (fun j : Nat => a.min * a.inc ^ j) := by
  induction fuel generalizing a i with
  | zero => omega
  | succ fuel ih =>
    unfold collect
    by_cases h0 : i = 0
    · subst h0
      have e : logNext a = some (a.current, { a with index := a.index + 1 }) := by
        simp [logNext, hi]
      rw [e]
      simp only
      rw [ih { a with index := a.index + 1 } 1 (by simp [hi]) (by simpa using hc) (by omega)
        (by simpa using hlt) (by simpa using hge) (by omega)]
      rw [show n - 0 = (n - 1) + 1 by omega, List.range'_succ]
      simp [hc]
    · by_cases hlast : i = n
      · have : ¬ (a.index : ℝ) < a.points := by rw [hi, hlast]; exact not_lt.2 hge
        have e : logNext a = none := by
          unfold logNext
          rw [if_neg (by omega), if_neg this]
        rw [e, hlast]; simp
      · have hlt' : (a.index : ℝ) < a.points := by rw [hi]; exact hlt i (by omega) (by omega)
        have e : logNext a = some (a.current * a.inc,
            { a with current := a.current * a.inc, index := a.index + 1 }) := by
          unfold logNext
          rw [if_neg (by omega), if_pos hlt']
        rw [e]
        simp only
        have hcur : a.current * a.inc = a.min * a.inc ^ i := by
          rw [hc, mul_assoc, ← pow_succ, Nat.sub_add_cancel (by omega)]
        rw [ih { a with current := a.current * a.inc, index := a.index + 1 } (i + 1)
          (by simp [hi]) (by simpa using hcur) (by omega) (by simpa using hlt)
          (by simpa using hge) (by omega)]
        rw [show n - i = (n - (i + 1)) + 1 by omega, List.range'_succ]
        simp [hcur]

/-- C20: a logarithmic axis with `N >= 2` points between positive end points: number of
values, first, last, equal ratios, monotone, within the end points, agreement with
indexing. -/
theorem C20_log_axis (min max : ℝ) (hmin : 0 < min) (hmax : min < max) (N : Nat) (hN : 2 ≤ N)
    (fuel : Nat) (hf : N < fuel) :
    let a := logInit min max N
    let l := collect logNext fuel a
    l.length = N ∧ l[0]? = some min ∧ l[N - 1]? = some max ∧
      (∀ i x y, l[i]? = some x → l[i + 1]? = some y → y / x = a.inc ∧ x < y) ∧
      (∀ x ∈ l, min ≤ x ∧ x ≤ max) ∧
      (∀ i, logGet a i = l[i]?) := by
  intro a l
  have hN1 : (0 : ℝ) < (N : ℝ) - 1 := by
    have : (2 : ℝ) ≤ N := by exact_mod_cast hN
    linarith
  have hmax0 : 0 < max := hmin.trans hmax
  have hl : l = (List.range N).map (fun i : Nat => min * a.inc ^ i) := by
    show collect logNext fuel a = _
    rw [log_collect _ 0 fuel rfl (by simp [a, logInit]) N (by omega) (by omega)
      (fun j _ hj => by show (j : ℝ) < (N : ℝ); exact_mod_cast hj) (le_refl _) (by omega)]
    simp [List.range_eq_range', a, logInit]
  -- the increment, and its (N-1)-th power
  have hlog : 0 < Real.logb 10 max - Real.logb 10 min := by
    have := Real.logb_lt_logb (b := 10) (by norm_num) hmin hmax
    linarith
  have hinc1 : 1 < a.inc := by
    show 1 < (10 : ℝ) ^ _
    exact Real.one_lt_rpow (by norm_num) (div_pos hlog hN1)
  have hinc0 : 0 < a.inc := by linarith
  have hpow : a.inc ^ (N - 1) = max / min := by
    show ((10 : ℝ) ^ _) ^ (N - 1) = _
    rw [← Real.rpow_natCast, ← Real.rpow_mul (by norm_num), Nat.cast_sub (by omega)]
    push_cast
    rw [div_mul_cancel₀ _ hN1.ne', Real.rpow_sub (by norm_num),
      Real.rpow_logb (by norm_num) (by norm_num) hmax0,
      Real.rpow_logb (by norm_num) (by norm_num) hmin]
  have hget : ∀ i, l[i]? = if i < N then some (min * a.inc ^ i) else none := by
    intro i
    rw [hl]
    split
    · rename_i h; simp [h]
    · rename_i h; simp; omega
  refine ⟨by rw [hl]; simp, ?_, ?_, ?_, ?_, ?_⟩
  · rw [hget, if_pos (by omega)]; simp
  · rw [hget, if_pos (by omega), hpow]
    congr 1
    field_simp
  · intro i x y hx hy
    rw [hget] at hx hy
    split at hx <;> split at hy <;> simp only [Option.some.injEq, reduceCtorEq] at hx hy
    rw [← hx, ← hy]
    have hp : 0 < a.inc ^ i := pow_pos hinc0 i
    constructor
    · rw [pow_succ]; field_simp
    · rw [pow_succ]
      apply mul_lt_mul_of_pos_left _ hmin
      nlinarith
  · intro x hx
    rw [hl] at hx
    obtain ⟨i, hi, rfl⟩ := List.mem_map.1 hx
    rw [List.mem_range] at hi
    constructor
    · have : 1 ≤ a.inc ^ i := one_le_pow₀ hinc1.le
      nlinarith
    · have : a.inc ^ i ≤ a.inc ^ (N - 1) := pow_le_pow_right₀ hinc1.le (by omega)
      rw [hpow] at this
      calc min * a.inc ^ i ≤ min * (max / min) := by
            exact mul_le_mul_of_nonneg_left this hmin.le
        _ = max := by field_simp
  · intro i
    rw [hget]
    unfold logGet
    by_cases h0 : i = 0
    · subst h0
      rw [if_pos rfl, if_pos (by omega)]
      simp [a, logInit]
    · rw [if_neg h0]
      have : ((i : ℝ) < a.points) ↔ i < N := by
        show ((i : ℝ) < (N : ℝ)) ↔ _
        exact Nat.cast_lt
      simp only [this]
      rfl

/-- Example: ten to a thousand in three points; the hypotheses are met. -/
example : ((0 : ℝ) < 10) ∧ ((10 : ℝ) < 1000) ∧ 2 ≤ 3 := by norm_num

example : (linInit (1 : ℚ) 3 5).map (collect linNext 9) = some [1, 3/2, 2, 5/2, 3] := by
  decide +kernel
example : linInit (1 : ℚ) 3 (3/2) = none := by unfold linInit; norm_num

end Verif.Axes
