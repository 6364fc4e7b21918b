import Verif.Model.StepPts
import Mathlib.Tactic.Linarith
import Mathlib.Tactic.FieldSimp
import Mathlib.Tactic.Ring
import Mathlib.Tactic.NormNum
import Mathlib.Tactic.Positivity

/-!
Property C22 (step, points and period).
-/

namespace Verif.StepPts

/-- Common computation when the step rules. -/
theorem step_rules (T s : ℚ) (hT : 0 < T) (hs : 0 < s) (points : Option ℤ) (d : ℤ) (r : ℤ × ℚ)
    (h : check (some s) points (some T) d = .ok r) :
    ((r.1 - 1 : ℤ) : ℚ) * r.2 = T ∧ 2 ≤ r.1 ∧ s ≤ r.2 ∧ T / (r.1 : ℚ) < s := by
  have hp : 0 < T / s := div_pos hT hs
  have hpi : pyInt (T / s) = ⌊T / s⌋ := by simp [pyInt, hp.le]
  have hf0 : 0 ≤ ⌊T / s⌋ := Int.floor_nonneg.2 hp.le
  have hsplit := Int.floor_add_fract (T / s)
  have key : check (some s) points (some T) d =
      if s = 0 then .error .zeroDivision
      else if Int.fract (T / s) ≠ 0 then
          if pyInt (T / s) = 0 then .error .zeroDivision
          else if s + s * Int.fract (T / s) / (pyInt (T / s) : ℚ) = 0 then .error .zeroDivision
            else .ok (pyInt (T / (s + s * Int.fract (T / s) / (pyInt (T / s) : ℚ))) + 1,
              s + s * Int.fract (T / s) / (pyInt (T / s) : ℚ))
        else .ok (pyInt (T / s) + 1, s) := by
    cases points <;> rfl
  rw [key, if_neg hs.ne', hpi] at h
  have hTs : T = s * (T / s) := by field_simp
  by_cases hfr : Int.fract (T / s) = 0
  · simp only [hfr, ne_eq, not_true_eq_false, if_false, Except.ok.injEq] at h
    subst h
    rw [hfr, add_zero] at hsplit
    simp only
    have h1 : 0 < ⌊T / s⌋ := by
      have : (0 : ℚ) < (⌊T / s⌋ : ℚ) := by rw [hsplit]; exact hp
      exact_mod_cast this
    refine ⟨?_, by omega, le_refl _, ?_⟩
    · rw [show ⌊T / s⌋ + 1 - 1 = ⌊T / s⌋ by ring, hsplit]; field_simp
    · push_cast
      rw [hsplit]
      rw [div_lt_iff₀ (by linarith)]
      have : s * (T / s + 1) = T + s := by field_simp
      linarith
  · simp only [hfr, ne_eq, not_false_eq_true, if_true] at h
    split at h
    · cases h
    rename_i hn
    have hn1 : 1 ≤ ⌊T / s⌋ := by omega
    have hnq : (1 : ℚ) ≤ (⌊T / s⌋ : ℚ) := by exact_mod_cast hn1
    generalize hN : (⌊T / s⌋ : ℚ) = n at *
    have hs' : s + s * Int.fract (T / s) / n = T / n := by
      have : Int.fract (T / s) = T / s - n := by linarith
      rw [this]; field_simp; ring
    rw [hs'] at h
    split at h
    · cases h
    have hq : T / (T / n) = n := by field_simp
    simp only [Except.ok.injEq] at h
    have hpn : pyInt (T / (T / n)) = ⌊T / s⌋ := by
      rw [hq, ← hN]
      unfold pyInt
      rw [if_pos (by exact_mod_cast hf0)]
      simp
    rw [hpn] at h
    subst h
    simp only
    have hle : n ≤ T / s := by rw [← hN]; exact Int.floor_le _
    have hlt : T / s < n + 1 := by rw [← hN]; exact Int.lt_floor_add_one _
    refine ⟨?_, by omega, ?_, ?_⟩
    · rw [show ⌊T / s⌋ + 1 - 1 = ⌊T / s⌋ by ring, hN]; field_simp
    · rw [le_div_iff₀ (by linarith)]
      rw [le_div_iff₀ hs] at hle
      linarith
    · push_cast
      rw [hN, div_lt_iff₀ (by linarith)]
      rw [div_lt_iff₀ hs] at hlt
      linarith

/-- C22: whenever a result is returned for a positive period and a positive step (if one is
given), `(points-1)*step` is the period. -/
theorem C22_consistent (step : Option ℚ) (points : Option ℤ) (T : ℚ) (d : ℤ) (hT : 0 < T)
    (hs : ∀ s, step = some s → 0 < s) (r : ℤ × ℚ)
    (h : check step points (some T) d = .ok r) : ((r.1 - 1 : ℤ) : ℚ) * r.2 = T := by
  cases step with
  | some s => exact (step_rules T s hT (hs s rfl) points d r h).1
  | none =>
    obtain ⟨n, hn⟩ : ∃ n, check none points (some T) d =
        if n ≠ 0 then
          if n - 1 = 0 then .error .zeroDivision else .ok (n, T / ((n - 1 : ℤ) : ℚ))
        else .error .typeError := by
      cases points with
      | none => exact ⟨d, rfl⟩
      | some n => exact ⟨n, rfl⟩
    rw [hn] at h
    split at h
    · split at h
      · cases h
      · rename_i hne
        simp only [Except.ok.injEq] at h
        subst h
        have : ((n - 1 : ℤ) : ℚ) ≠ 0 := by exact_mod_cast hne
        field_simp
    · cases h

/-- C22: a supplied step is never made smaller, and one more interval would make it smaller
than asked for: nothing more than rounding to whole intervals happens. -/
theorem C22_step_rounded (T s : ℚ) (hT : 0 < T) (hs : 0 < s) (points : Option ℤ) (d : ℤ)
    (r : ℤ × ℚ) (h : check (some s) points (some T) d = .ok r) :
    2 ≤ r.1 ∧ s ≤ r.2 ∧ T / (r.1 : ℚ) < s :=
  (step_rules T s hT hs points d r h).2

/-- C22: a supplied number of points is kept, and the default is used if nothing is given. -/
theorem C22_points_kept (points : Option ℤ) (T : ℚ) (d : ℤ) (r : ℤ × ℚ)
    (h : check none points (some T) d = .ok r) : r.1 = points.getD d := by
  obtain ⟨n, hn, hn'⟩ : ∃ n, points.getD d = n ∧ check none points (some T) d =
      if n ≠ 0 then
        if n - 1 = 0 then .error .zeroDivision else .ok (n, T / ((n - 1 : ℤ) : ℚ))
      else .error .typeError := by
    cases points with
    | none => exact ⟨d, rfl, rfl⟩
    | some n => exact ⟨n, rfl, rfl⟩
  rw [hn'] at h
  split at h
  · split at h
    · cases h
    · simp only [Except.ok.injEq] at h
      rw [← h, hn]
  · cases h

/-- C22: exactly when a result is returned (positive period and step). -/
theorem C22_success_iff (step : Option ℚ) (points : Option ℤ) (T : ℚ) (d : ℤ) (hT : 0 < T)
    (hs : ∀ s, step = some s → 0 < s) :
    (∃ r, check step points (some T) d = .ok r) ↔
      match step with
      | some s => s ≤ T
      | none => points.getD d ≠ 0 ∧ points.getD d ≠ 1 := by
  cases step with
  | some s =>
    have hs0 := hs s rfl
    simp only
    have hp : 0 < T / s := div_pos hT hs0
    constructor
    · rintro ⟨r, h⟩
      obtain ⟨h1, h2, h3, -⟩ := step_rules T s hT hs0 points d r h
      have : (1 : ℚ) ≤ ((r.1 - 1 : ℤ) : ℚ) := by exact_mod_cast (by omega : 1 ≤ r.1 - 1)
      nlinarith
    · intro hle
      have hfl : 1 ≤ ⌊T / s⌋ := by
        rw [Int.le_floor]
        push_cast
        rw [le_div_iff₀ hs0]; linarith
      have hpi : pyInt (T / s) = ⌊T / s⌋ := by simp [pyInt, hp.le]
      have key : check (some s) points (some T) d =
          if s = 0 then .error .zeroDivision
          else if Int.fract (T / s) ≠ 0 then
              if pyInt (T / s) = 0 then .error .zeroDivision
              else if s + s * Int.fract (T / s) / (pyInt (T / s) : ℚ) = 0 then
                  .error .zeroDivision
                else .ok (pyInt (T / (s + s * Int.fract (T / s) / (pyInt (T / s) : ℚ))) + 1,
                  s + s * Int.fract (T / s) / (pyInt (T / s) : ℚ))
            else .ok (pyInt (T / s) + 1, s) := by
        cases points <;> rfl
      rw [key, if_neg hs0.ne', hpi]
      split
      · rw [if_neg (by omega)]
        have : (0 : ℚ) < (⌊T / s⌋ : ℚ) := by exact_mod_cast hfl
        have h2 : 0 ≤ s * Int.fract (T / s) / (⌊T / s⌋ : ℚ) :=
          div_nonneg (mul_nonneg hs0.le (Int.fract_nonneg _)) this.le
        rw [if_neg (by linarith)]
        exact ⟨_, rfl⟩
      · exact ⟨_, rfl⟩
  | none =>
    obtain ⟨n, hn, hn'⟩ : ∃ n, points.getD d = n ∧ check none points (some T) d =
        if n ≠ 0 then
          if n - 1 = 0 then .error .zeroDivision else .ok (n, T / ((n - 1 : ℤ) : ℚ))
        else .error .typeError := by
      cases points with
      | none => exact ⟨d, rfl, rfl⟩
      | some n => exact ⟨n, rfl, rfl⟩
    simp only
    rw [hn', hn]
    constructor
    · rintro ⟨r, h⟩
      split at h
      · rename_i h0
        split at h
        · cases h
        · exact ⟨h0, by omega⟩
      · cases h
    · rintro ⟨h0, h1⟩
      rw [if_pos h0, if_neg (by omega)]
      exact ⟨_, rfl⟩

example : check (some (3/10)) none (some 1) 100 = .ok (4, 1/3) := by decide +kernel
example : check (some (3/10)) (some 7) (some 1) 100 = .ok (4, 1/3) := by decide +kernel
example : check none (some 11) (some 1) 100 = .ok (11, 1/10) := by decide +kernel
example : check none none (some 1) 101 = .ok (101, 1/100) := by decide +kernel

/-- C22 is false for a step longer than the period, for zero or one points, and for a
negative period: exceptions of an unrelated kind, or an inconsistent result. -/
theorem C22_degenerate_refuted :
    check (some 2) none (some 1) 100 = .error .zeroDivision ∧
    check none (some 0) (some 1) 100 = .error .typeError ∧
    check none (some 1) (some 1) 100 = .error .zeroDivision ∧
    check (some 2) none (some (-5)) 100 = .ok (-2, 3/2) := by decide +kernel

end Verif.StepPts
