import Verif.Model.EkvNewton
import Verif.Props.EkvG

/-!
Property C180: the normalised current of an EKV transistor solves the charge equation, whatever it is started from.
-/

namespace Verif.Ekv
open Real Verif.Circuit

theorem sqrt_i2q {x : ℝ} (h : 0 < x) : √(0.25 + x) = i2q x + 0.5 := by rw [i2q_eq h]; ring

theorem i2q_le {x : ℝ} (h : 0 < x) : i2q x ≤ x := by
  have h1 := C46_inverse_current x h.le
  unfold q2i at h1
  nlinarith [i2q_pos h, sq_nonneg (i2q x)]

/-- the step of Newton's or Halley's method in terms of the charge -/
theorem hstep_at (guard : Bool) (e : Eps) (v x y : ℝ) (hy : 0 < y) (h1 : objPrime e x = 1 / i2q y)
    (h2 : objPrime2 e x = -1 / (2 * (i2q y + 0.5) * i2q y ^ 2)) :
    hstep guard e v x = if guard = true ∧ 4 * i2q y + 2 ≤ |obj v x| then obj v x * i2q y
      else obj v x * i2q y / (1 + obj v x / (4 * i2q y + 2)) := by
  have hq := i2q_pos hy
  have hs : obj v x / objPrime e x = obj v x * i2q y := by
    rw [h1]; field_simp
  have ha : obj v x / objPrime e x * objPrime2 e x / objPrime e x / 2 = - (obj v x / (4 * i2q y + 2)) := by
    rw [hs, h1, h2]
    have : i2q y + 0.5 ≠ 0 := by positivity
    have : 4 * i2q y + 2 ≠ 0 := by positivity
    field_simp
    ring
  unfold hstep
  simp only
  rw [ha, hs, abs_neg, abs_div, abs_of_pos (show 0 < 4 * i2q y + 2 by positivity), sub_neg_eq_add]
  have hiff : (guard = true ∧ ¬ |obj v x| / (4 * i2q y + 2) < 1) ↔ guard = true ∧ 4 * i2q y + 2 ≤ |obj v x| := by
    rw [not_lt, one_le_div (by positivity)]
  by_cases hc : guard = true ∧ 4 * i2q y + 2 ≤ |obj v x|
  · rw [if_pos hc, if_pos (hiff.2 hc)]
  · rw [if_neg hc, if_neg (fun h => hc (hiff.1 h))]

theorem objPrime_at (e : Eps) {x : ℝ} (h : e.eps ≤ x) : objPrime e x = 1 / i2q x := by
  have hx := e.pos.trans_le h
  have hq := i2q_pos hx
  unfold objPrime
  simp only
  rw [if_neg (not_lt.2 h), sqrt_i2q hx, show i2q x + 0.5 - 0.5 = i2q x by ring]
  have : i2q x + 0.5 ≠ 0 := by positivity
  have := hq.ne'
  field_simp
  ring

theorem objPrime_below (e : Eps) {x : ℝ} (h : x < e.eps) : objPrime e x = objPrime e (10 * e.eps) ∧
    objPrime2 e x = objPrime2 e (10 * e.eps) := by
  have := e.pos
  constructor
  · unfold objPrime
    simp only
    rw [if_pos h, if_neg (by linarith)]
  · unfold objPrime2
    simp only
    rw [if_pos h, if_neg (by linarith)]

theorem objPrime2_at (e : Eps) {x : ℝ} (h : e.eps ≤ x) : objPrime2 e x = -1 / (2 * (i2q x + 0.5) * i2q x ^ 2) := by
  have hx := e.pos.trans_le h
  have hq := i2q_pos hx
  unfold objPrime2
  simp only
  rw [if_neg (not_lt.2 h), add_comm x 0.25]
  have hr : (0.25 + x) ^ (3 / 2 : ℝ) = √(0.25 + x) ^ 3 := by
    rw [sqrt_eq_rpow, ← rpow_natCast, ← rpow_mul (by linarith)]
    norm_num
  rw [hr, sqrt_i2q hx]
  have hsq : 0.25 + x = (i2q x + 0.5) ^ 2 := by rw [← sqrt_i2q hx, sq_sqrt (by linarith)]
  rw [hsq]
  set q := i2q x
  have a : q + 0.5 ≠ 0 := by positivity
  have b : q + 0.5 - 0.5 = q := by ring
  rw [b]
  have c : q ≠ 0 := hq.ne'
  field_simp
  ring

theorem hstep_above (guard : Bool) (e : Eps) (v : ℝ) {x : ℝ} (h : e.eps ≤ x) :
    hstep guard e v x = if guard = true ∧ 4 * i2q x + 2 ≤ |obj v x| then obj v x * i2q x
      else obj v x * i2q x / (1 + obj v x / (4 * i2q x + 2)) :=
  hstep_at guard e v x x (e.pos.trans_le h) (objPrime_at e h) (objPrime2_at e h)

theorem hstep_below (guard : Bool) (e : Eps) (v : ℝ) {x : ℝ} (h : x < e.eps) :
    hstep guard e v x = if guard = true ∧ 4 * i2q (10 * e.eps) + 2 ≤ |obj v x| then obj v x * i2q (10 * e.eps)
      else obj v x * i2q (10 * e.eps) / (1 + obj v x / (4 * i2q (10 * e.eps) + 2)) := by
  have hp := e.pos
  refine hstep_at guard e v x (10 * e.eps) (by positivity) ?_ ?_
  · rw [(objPrime_below e h).1, objPrime_at e (by linarith)]
  · rw [(objPrime_below e h).2, objPrime2_at e (by linarith)]

/-- the step for a voltage that is too high -/
theorem hstep_le {guard : Bool} {f q : ℝ} (hf : 0 ≤ f) (hq : 0 < q) :
    0 ≤ (if guard = true ∧ 4 * q + 2 ≤ |f| then f * q else f * q / (1 + f / (4 * q + 2))) ∧
    (if guard = true ∧ 4 * q + 2 ≤ |f| then f * q else f * q / (1 + f / (4 * q + 2))) ≤ f * q := by
  have h0 : 0 ≤ f / (4 * q + 2) := by positivity
  have h1 : 0 ≤ f * q := by positivity
  split
  · exact ⟨h1, le_refl _⟩
  · exact ⟨by positivity, div_le_self h1 (by linarith)⟩

/-- once the iteration has left the positive currents it ends at once and the lower limit is returned -/
theorem ends_below (guard : Bool) (e : Eps) {v tol x : ℝ} (hx : x ≤ 0) (hv : v ≤ x) (ht : -v * (10 * e.eps) < tol) (n : Nat) :
    ∃ p, newton guard e v tol (n + 1) x = .ok p ∧ p ≤ 0 := by
  have hp := e.pos
  have hq := i2q_pos (show 0 < 10 * e.eps by positivity)
  have hf : obj v x = x - v := by unfold obj; rw [if_neg (not_lt.2 hx)]
  have hs := hstep_le (guard := guard) (f := obj v x) (by rw [hf]; linarith) hq
  rw [← hstep_below guard e v (hx.trans_lt hp)] at hs
  unfold newton
  split
  · exact ⟨x, rfl, hx⟩
  · have hlt : |x - hstep guard e v x - x| < tol := by
      rw [show x - hstep guard e v x - x = -hstep guard e v x by ring, abs_neg, abs_of_nonneg hs.1]
      refine lt_of_le_of_lt (hs.2.trans ?_) ht
      rw [hf]
      have := i2q_le (show 0 < 10 * e.eps by positivity)
      exact mul_le_mul (by linarith) this hq.le (by linarith)
    simp only
    rw [if_pos (Or.inl hlt)]
    exact ⟨_, rfl, by linarith [hs.1]⟩

theorem vOf_q {x : ℝ} (h : 0 < x) : vOf x = log (i2q x) + 2 * i2q x := vOf_eq h

/-- the first step from a guess that is much too high leads to a current that is not positive -/
theorem first_step (guard : Bool) (e : Eps) {v x : ℝ} (hx : e.eps ≤ x) (hq1 : i2q x ≤ 1) (hv : v ≤ 0)
    (hf : (i2q x + 1) * (4 * i2q x + 2) < (vOf x - v) * (3 * i2q x + 1)) :
    x - hstep guard e v x ≤ 0 ∧ v ≤ x - hstep guard e v x := by
  have hx0 := e.pos.trans_le hx
  have hq := i2q_pos hx0
  have ho : obj v x = vOf x - v := by unfold obj; rw [if_pos hx0]
  have hxq : x = i2q x ^ 2 + i2q x := (C46_inverse_current x hx0.le).symm
  rw [← ho] at hf
  have hf0 : 0 < obj v x := by
    by_contra hc
    nlinarith [mul_nonneg (show 0 ≤ -obj v x by linarith) (show 0 ≤ 3 * i2q x + 1 by positivity), mul_pos (show 0 < i2q x + 1 by positivity) (show 0 < 4 * i2q x + 2 by positivity)]
  have hs := hstep_le (guard := guard) (f := obj v x) hf0.le hq
  rw [← hstep_above guard e v hx] at hs
  constructor
  · suffices h : i2q x * (i2q x + 1) ≤ hstep guard e v x by nlinarith
    rw [hstep_above guard e v hx]
    split
    · rename_i hc
      have := hc.2
      rw [abs_of_pos hf0] at this
      nlinarith
    · rw [le_div_iff₀ (by positivity)]
      have h4 : 0 < 4 * i2q x + 2 := by positivity
      have : (i2q x + 1) * (1 + obj v x / (4 * i2q x + 2)) ≤ obj v x := by
        have : (i2q x + 1) * (1 + obj v x / (4 * i2q x + 2)) = (i2q x + 1) * (4 * i2q x + 2 + obj v x) / (4 * i2q x + 2) := by
          field_simp
        rw [this, div_le_iff₀ h4]
        nlinarith
      nlinarith
  · have h1 : hstep guard e v x ≤ (vOf x - v) * i2q x := by rw [← ho]; exact hs.2
    rw [vOf_q hx0] at h1
    have hl := log_nonpos hq.le hq1
    nlinarith [mul_nonneg (show 0 ≤ 1 - i2q x by linarith) (show 0 ≤ i2q x - v by linarith), mul_nonneg hq.le (show 0 ≤ -log (i2q x) by linarith)]

/-- C180, refuted: a guess that is much too high gives the lower limit, not the current. This holds for all versions of scipy and
all voltages that are not positive with a current below the guess by a factor of about ten. -/
theorem C180_high_guess_refuted (guard : Bool) (e : Eps) {v x : ℝ} (hx : e.eps ≤ x) (hq1 : i2q x ≤ 1) (hv : v ≤ 0)
    (hf : (i2q x + 1) * (4 * i2q x + 2) < (vOf x - v) * (3 * i2q x + 1)) (ht : -v * (10 * e.eps) < ntol) :
    ismall guard e v x = .ok (10 * e.eps) := by
  obtain ⟨h1, h2⟩ := first_step guard e hx hq1 hv hf
  have hx0 := e.pos.trans_le hx
  have ho : obj v x ≠ 0 := by
    intro hc
    unfold obj at hc
    rw [if_pos hx0] at hc
    rw [hc] at hf
    have := i2q_pos hx0
    nlinarith
  have : ∃ p, newton guard e v ntol 500 x = .ok p ∧ p ≤ 0 := by
    unfold newton
    rw [if_neg (fun h => ho h.2)]
    simp only
    split
    · exact ⟨_, rfl, h1⟩
    · exact ends_below guard e h1 h2 ht 498
  obtain ⟨p, hp, hp0⟩ := this
  unfold ismall
  rw [hp]
  simp only
  rw [max_eq_right]
  linarith [e.pos]

/-- `EPS` of double precision -/
noncomputable def eps64 : Eps := ⟨1 / 2 ^ 52, by positivity⟩

theorem q_one : 0.618 < i2q 1 ∧ i2q 1 < 0.6181 := by
  have h : i2q 1 = √1.25 - 0.5 := by rw [i2q_eq one_pos]; norm_num
  rw [h]
  constructor
  · have : (1.118 : ℝ) < √1.25 := by
      rw [Real.lt_sqrt (by norm_num)]; norm_num
    linarith
  · have : √1.25 < (1.1181 : ℝ) := by
      rw [Real.sqrt_lt' (by norm_num)]; norm_num
    linarith

/-- C180, refuted for new devices: they start from 1, and all voltages from -1000 to -2 give `10·EPS`, although the current at -2
is above 0.1. -/
theorem C180_new_device_refuted : (∀ (guard : Bool) (v : ℝ), -1000 ≤ v → v ≤ -2 → ismall guard eps64 v initGuess = .ok (10 * eps64.eps)) ∧
    1 / 10 < sol (-2) := by
  constructor
  · intro guard v h1 h2
    obtain ⟨ha, hb⟩ := q_one
    have hl : -0.6182 < log (i2q 1) := by
      have h3 := Real.one_sub_inv_le_log_of_pos (show 0 < i2q 1 by linarith)
      have h4 : (i2q 1)⁻¹ < 1.6182 := by
        rw [inv_lt_comm₀ (by linarith) (by norm_num)]
        norm_num
        linarith
      linarith
    have hvo := vOf_q (show (0 : ℝ) < 1 by norm_num)
    unfold initGuess
    refine C180_high_guess_refuted guard eps64 ?_ (by linarith) (by linarith) ?_ ?_
    · change (1 : ℝ) / 2 ^ 52 ≤ 1
      norm_num
    · rw [hvo]
      nlinarith
    · change -v * (10 * (1 / 2 ^ 52)) < 1.48e-8
      norm_num
      linarith
  · have h1 : vOf (1 / 10) < -2 := by
      rw [vOf_q (by norm_num)]
      have hq : i2q (1 / 10) < 0.0917 := by
        rw [i2q_eq (by norm_num)]
        have : √(0.25 + 1 / 10) < (0.5917 : ℝ) := by
          rw [Real.sqrt_lt' (by norm_num)]; norm_num
        linarith
      have hq0 : 0 < i2q (1 / 10) := i2q_pos (by norm_num)
      have hl : log (i2q (1 / 10)) < log 0.0917 := Real.log_lt_log hq0 hq
      have hl2 : log 0.0917 < -2.3 := by
        have e1 : (0.0917 : ℝ) = (2 ^ 3)⁻¹ * 0.7336 := by norm_num
        have e2 : log (0.7336 : ℝ) ≤ 0.7336 - 1 := Real.log_le_sub_one_of_pos (by norm_num)
        rw [e1, Real.log_mul (by norm_num) (by norm_num), Real.log_inv, Real.log_pow]
        have := Real.log_two_gt_d9
        push_cast
        linarith
      linarith
    have h2 := sol_vOf (show (0 : ℝ) < 1 / 10 by norm_num)
    rw [← h2]
    exact sol_mono h1

/-- C180, refuted for devices that were off: they start from `1e-10`, the first step is shorter than the tolerance for all voltages
from -10 to 100, and what is returned is below `1.3e-8`. -/
theorem low_guess (guard : Bool) (e : Eps) (he : 10 * e.eps ≤ guessMin) {v : ℝ} (h1 : -10 ≤ v) (h2 : v ≤ 100) :
    ∃ i, ismall guard e v guessMin = .ok i ∧ i ≤ 1.3e-8 ∧ (guard = true → guessMin < i) := by
  have hp := e.pos
  have hx : e.eps ≤ guessMin := by linarith
  have hx0 : (0 : ℝ) < guessMin := hp.trans_le hx
  have hq := i2q_pos hx0
  have hqx := i2q_le hx0
  have hxq : guessMin = i2q guessMin ^ 2 + i2q guessMin := (C46_inverse_current guessMin hx0.le).symm
  have hg : guessMin = 1e-10 := rfl
  have hqx : i2q guessMin ≤ 1e-10 := hqx.trans_eq hg
  have hq2 : 0.9e-10 < i2q guessMin := by
    have h3 : i2q guessMin ^ 2 + i2q guessMin = 1e-10 := hxq.symm.trans hg
    nlinarith
  have hlog1 : log (i2q guessMin) < -22.8 := by
    have a : log (i2q guessMin) ≤ log ((2 ^ 33)⁻¹) := Real.log_le_log hq (by refine hqx.trans ?_; norm_num)
    rw [Real.log_inv, Real.log_pow] at a
    have := Real.log_two_gt_d9
    push_cast at a
    linarith
  have hlog2 : -23.6 < log (i2q guessMin) := by
    have a : log ((2 ^ 34)⁻¹) ≤ log (i2q guessMin) := Real.log_le_log (by positivity) (by refine le_trans ?_ hq2.le; norm_num)
    rw [Real.log_inv, Real.log_pow] at a
    have := Real.log_two_lt_d9
    push_cast at a
    linarith
  have ho : obj v guessMin = log (i2q guessMin) + 2 * i2q guessMin - v := by
    unfold obj; rw [if_pos hx0, vOf_q hx0]
  have hf1 : obj v guessMin < -12 := by rw [ho]; linarith
  have hf2 : -124 < obj v guessMin := by rw [ho]; linarith
  have hst : |hstep guard e v guessMin| ≤ 124e-10 ∧ (guard = true → hstep guard e v guessMin < 0) := by
    have hfq : -obj v guessMin * i2q guessMin ≤ 124e-10 := by
      have : -obj v guessMin * i2q guessMin ≤ 124 * 1e-10 := mul_le_mul (by linarith) hqx hq.le (by norm_num)
      linarith
    have hab : |obj v guessMin| = -obj v guessMin := abs_of_neg (by linarith)
    have h4 : 4 * i2q guessMin + 2 ≤ 3 := by linarith
    have hneg : obj v guessMin * i2q guessMin < 0 := mul_neg_of_neg_of_pos (by linarith) hq
    rw [hstep_above guard e v hx]
    split
    · exact ⟨by rw [abs_of_neg hneg]; linarith, fun _ => hneg⟩
    · rename_i hc
      constructor
      · rw [abs_div, abs_of_neg hneg]
        have hd : obj v guessMin / (4 * i2q guessMin + 2) ≤ -4 := by
          rw [div_le_iff₀ (by positivity)]
          nlinarith
        have : 1 ≤ |1 + obj v guessMin / (4 * i2q guessMin + 2)| := by
          rw [abs_of_neg (by linarith)]
          linarith
        refine (div_le_self (by linarith) this).trans (by linarith)
      · intro hgt
        exact absurd ⟨hgt, by rw [hab]; linarith⟩ hc
  have hn : newton guard e v ntol 500 guessMin = .ok (guessMin - hstep guard e v guessMin) := by
    unfold newton
    rw [if_neg (fun h => by linarith [h.2])]
    simp only
    rw [if_pos]
    left
    rw [show guessMin - hstep guard e v guessMin - guessMin = -hstep guard e v guessMin by ring, abs_neg]
    refine lt_of_le_of_lt hst.1 ?_
    unfold ntol
    norm_num
  refine ⟨max (guessMin - hstep guard e v guessMin) (10 * e.eps), ?_, ?_, ?_⟩
  · unfold ismall
    rw [hn]
  · apply max_le
    · linarith [neg_abs_le (hstep guard e v guessMin), hst.1, hg.le]
    · refine he.trans ?_
      rw [hg]
      norm_num
  · intro hgt
    exact lt_max_of_lt_left (by linarith [hst.2 hgt])

theorem C180_low_guess_refuted : (∀ (guard : Bool) (v : ℝ), -10 ≤ v → v ≤ 100 →
    ∃ i, ismall guard eps64 v guessMin = .ok i ∧ i ≤ 1.3e-8) ∧ 1000 < sol 100 := by
  constructor
  · intro guard v h1 h2
    obtain ⟨i, hi, hb, -⟩ := low_guess guard eps64 (by change 10 * (1 / 2 ^ 52 : ℝ) ≤ 1e-10; norm_num) h1 h2
    exact ⟨i, hi, hb⟩
  · have h1 : vOf 1000 < 100 := by
      rw [vOf_q (by norm_num)]
      have hq : i2q 1000 < 31.2 := by
        rw [i2q_eq (by norm_num)]
        have : √(0.25 + 1000) < (31.7 : ℝ) := by
          rw [Real.sqrt_lt' (by norm_num)]; norm_num
        linarith
      have hl : log (i2q 1000) ≤ i2q 1000 - 1 := Real.log_le_sub_one_of_pos (i2q_pos (by norm_num))
      linarith
    rw [← sol_vOf (show (0 : ℝ) < 1000 by norm_num)]
    exact sol_mono h1

/-- C180, refuted: a new device evaluated twice at the same voltage has two different currents. -/
theorem C180_twice_refuted (v : ℝ) (h1 : -10 ≤ v) (h2 : v ≤ -2) :
    ∃ i j, ismalls true eps64 initGuess [v, v] = .ok [i, j] ∧ i ≠ j := by
  obtain ⟨j, hj, -, hjg⟩ := low_guess true eps64 (by change 10 * (1 / 2 ^ 52 : ℝ) ≤ 1e-10; norm_num) h1 (by linarith)
  have hi := C180_new_device_refuted.1 true v (by linarith) h2
  have hg : 10 * eps64.eps < guessMin := by
    change 10 * (1 / 2 ^ 52 : ℝ) < 1e-10
    norm_num
  refine ⟨10 * eps64.eps, j, ?_, ?_⟩
  · unfold ismalls ismalls ismalls
    rw [max_eq_left (by unfold initGuess guessMin; norm_num), hi]
    simp only
    rw [max_eq_right hg.le, hj]
  · have := hjg rfl
    linarith

/-- C180: a device started from the current itself gives the current. -/
theorem C180_fixed_partial (guard : Bool) (e : Eps) (v : ℝ) : ismall guard e v (sol v) = .ok (max (sol v) (10 * e.eps)) := by
  have ho : obj v (sol v) = 0 := by unfold obj; rw [if_pos (sol_pos v), vOf_sol, sub_self]
  have hs : hstep guard e v (sol v) = 0 := by
    unfold hstep
    simp [ho]
  have hn : newton guard e v ntol 500 (sol v) = .ok (sol v) := by
    unfold newton
    split
    · rfl
    · simp only [hs, sub_zero, sub_self, abs_zero]
      rw [if_pos]
      left
      unfold ntol
      norm_num
  unfold ismall
  rw [hn]

/-- the distance to the solution is bounded by Newton's step, on the left of it times the ratio of the charges -/
theorem step_bound {v x : ℝ} (hx : 0 < x) :
    (sol v ≤ x → 0 ≤ obj v x ∧ x - sol v ≤ obj v x * i2q x) ∧ (x ≤ sol v → obj v x ≤ 0 ∧ sol v - x ≤ -obj v x * i2q (sol v)) := by
  have hs := sol_pos v
  have hq := i2q_pos hx
  have hr := i2q_pos hs
  have e1 : x = i2q x ^ 2 + i2q x := (C46_inverse_current x hx.le).symm
  have e2 : sol v = i2q (sol v) ^ 2 + i2q (sol v) := (C46_inverse_current (sol v) hs.le).symm
  have ev : v = log (i2q (sol v)) + 2 * i2q (sol v) := by rw [← vOf_q hs, vOf_sol]
  have ho : obj v x = log (i2q x) + 2 * i2q x - (log (i2q (sol v)) + 2 * i2q (sol v)) := by
    unfold obj; rw [if_pos hx, vOf_q hx, ← ev]
  have hlog : ∀ a b : ℝ, 0 < a → 0 < b → b - a ≤ b * (log b - log a) := by
    intro a b ha hb
    have := Real.one_sub_inv_le_log_of_pos (show 0 < b / a by positivity)
    rw [Real.log_div hb.ne' ha.ne', inv_div] at this
    have h3 := mul_le_mul_of_nonneg_left this hb.le
    have : b * (1 - a / b) = b - a := by field_simp
    linarith
  have hmono : ∀ a b : ℝ, 0 < a → a ≤ b → i2q a ≤ i2q b := by
    intro a b ha hab
    rcases hab.lt_or_eq with h | h
    · exact (C46_charge_increasing ha.le h).le
    · rw [h]
  constructor
  · intro h
    have hqr := hmono _ _ hs h
    have h3 := hlog _ _ hr hq
    have hl := Real.log_le_log hr hqr
    constructor
    · rw [ho]; linarith
    · rw [ho]
      nlinarith [mul_nonneg (show 0 ≤ i2q x - i2q (sol v) by linarith) (show 0 ≤ i2q x - i2q (sol v) by linarith)]
  · intro h
    have hqr := hmono _ _ hx h
    have h3 := hlog _ _ hq hr
    have hl := Real.log_le_log hq hqr
    constructor
    · rw [ho]; linarith
    · rw [ho]
      nlinarith [mul_nonneg (show 0 ≤ i2q (sol v) - i2q x by linarith) (show 0 ≤ i2q (sol v) - i2q x by linarith)]

/-- what is returned comes from a last iterate -/
theorem newton_last (guard : Bool) (e : Eps) (v tol : ℝ) (n : Nat) (x p : ℝ) (h : newton guard e v tol n x = .ok p) :
    ∃ y, (p = y ∧ obj v y = 0) ∨ (p = y - hstep guard e v y ∧ |hstep guard e v y| ≤ tol) := by
  induction n generalizing x with
  | zero => simp [newton] at h
  | succ n ih =>
    unfold newton at h
    split at h
    · rename_i hc
      obtain rfl := Except.ok.inj h
      exact ⟨x, Or.inl ⟨rfl, hc.2⟩⟩
    · simp only at h
      split at h
      · rename_i hc
        obtain rfl := Except.ok.inj h
        refine ⟨x, Or.inr ⟨rfl, ?_⟩⟩
        rw [show x - hstep guard e v x - x = -hstep guard e v x by ring, abs_neg] at hc
        rcases hc with hc | hc
        · exact hc.le
        · exact hc.2.le
      · exact ih _ h

/-- C180: with scipy 1.2 or later, what is returned is within twice the tolerance of the solution if the last iterate was not below
it, else within twice the tolerance times the ratio of the charges; or the last iterate was below `EPS`. -/
theorem C180_close_partial (e : Eps) (v x i : ℝ) (h : ismall true e v x = .ok i) :
    ∃ y, y < e.eps ∨ |i - max (sol v) (10 * e.eps)| ≤ 2 * ntol * max 1 (i2q (sol v) / i2q y) := by
  unfold ismall at h
  split at h
  · rename_i p hp
    obtain rfl := Except.ok.inj h
    have ht : 0 < ntol := by unfold ntol; norm_num
    obtain ⟨y, hy⟩ := newton_last true e v ntol 500 x p hp
    refine ⟨y, (lt_or_ge y e.eps).imp (fun h => h) fun hye => ?_⟩
    have hy0 := e.pos.trans_le hye
    have hq := i2q_pos hy0
    have hr := i2q_pos (sol_pos v)
    refine (abs_max_sub_max_le_abs _ _ _).trans ?_
    rcases hy with ⟨rfl, h0⟩ | ⟨rfl, hst⟩
    · have : p = sol v := (C46_unique_positive v).choose_spec.2 p ⟨hy0, h0⟩
      rw [this, sub_self, abs_zero]
      positivity
    · obtain ⟨hR, hL⟩ := step_bound (v := v) hy0
      have habs := hstep_above true e v hye
      rcases le_total (sol v) y with hc | hc
      · obtain ⟨f0, hd⟩ := hR hc
        have h5 := hstep_le (guard := true) f0 hq
        rw [← habs] at h5
        rw [abs_of_nonneg h5.1] at hst
        have hs2 : obj v y * i2q y ≤ 2 * hstep true e v y := by
          rw [habs]
          split
          · nlinarith
          · rename_i hn
            have hlt : obj v y < 4 * i2q y + 2 := by
              by_contra hcc
              exact hn ⟨rfl, by rw [abs_of_nonneg f0]; linarith⟩
            have h6 : obj v y / (4 * i2q y + 2) ≤ 1 := (div_le_one (by positivity)).2 hlt.le
            have h7 : 0 ≤ obj v y / (4 * i2q y + 2) := by positivity
            rw [mul_div_assoc', le_div_iff₀ (by linarith)]
            nlinarith [mul_nonneg f0 hq.le]
        have : |y - hstep true e v y - sol v| ≤ 2 * ntol := by
          rw [abs_le]
          constructor <;> linarith [h5.2]
        refine this.trans ?_
        nlinarith [le_max_left 1 (i2q (sol v) / i2q y)]
      · obtain ⟨f0, hd⟩ := hL hc
        have hs2 : -obj v y * i2q y ≤ ntol := by
          refine le_trans ?_ hst
          rw [habs]
          have hneg : 0 ≤ -obj v y * i2q y := by nlinarith
          split
          · rw [← abs_neg, ← neg_mul]
            exact le_abs_self _
          · rename_i hn
            have hlt : -obj v y < 4 * i2q y + 2 := by
              by_contra hcc
              exact hn ⟨rfl, by rw [abs_of_nonpos f0]; linarith⟩
            have h6 : -(obj v y) / (4 * i2q y + 2) < 1 := (div_lt_one (by positivity)).2 hlt
            have h7 : 0 ≤ -(obj v y) / (4 * i2q y + 2) := div_nonneg (by linarith) (by positivity)
            have h8 : obj v y / (4 * i2q y + 2) = -(-(obj v y) / (4 * i2q y + 2)) := by ring
            rw [abs_div, ← abs_neg, ← neg_mul, abs_of_nonneg hneg, abs_of_pos (by linarith)]
            rw [le_div_iff₀ (by linarith)]
            nlinarith
        have hd2 : sol v - y ≤ ntol * (i2q (sol v) / i2q y) := by
          rw [mul_div_assoc', le_div_iff₀ hq]
          nlinarith
        have hm1 := le_max_left 1 (i2q (sol v) / i2q y)
        have hm2 := le_max_right 1 (i2q (sol v) / i2q y)
        have h9 := abs_le.1 hst
        rw [abs_le]
        constructor <;> nlinarith
  · cases h

theorem hyp_le (x y d : ℝ) : √(x ^ 2 + d ^ 2) ≤ √(y ^ 2 + d ^ 2) + |x - y| := by
  have h0 : 0 ≤ √(y ^ 2 + d ^ 2) := Real.sqrt_nonneg _
  have h1 : |y| ≤ √(y ^ 2 + d ^ 2) := Real.abs_le_sqrt (by nlinarith [sq_nonneg d])
  rw [Real.sqrt_le_left (by positivity)]
  have h2 : √(y ^ 2 + d ^ 2) ^ 2 = y ^ 2 + d ^ 2 := Real.sq_sqrt (by positivity)
  have h3 : |y| * |x - y| ≤ √(y ^ 2 + d ^ 2) * |x - y| := mul_le_mul_of_nonneg_right h1 (abs_nonneg _)
  have h4 : y * (x - y) ≤ |y| * |x - y| := by rw [← abs_mul]; exact le_abs_self _
  have h5 : |x - y| ^ 2 = (x - y) ^ 2 := sq_abs _
  nlinarith

/-- the reverse voltage is between the one of the drain and the one of the source -/
theorem leqVirp_between (m : EM) (hv : 0 < m.Vth) {vd vs : ℝ} (h : vs ≤ vd) (vp ifn : ℝ) :
    vp / m.Vth - vd ≤ (m.leqVirp vd vs vp ifn).2 ∧ (m.leqVirp vd vs vp ifn).2 ≤ vp / m.Vth - vs := by
  simp only [EM.leqVirp]
  generalize m.UCRIT * m.N * m.L * (√(0.25 + m.Vth / (m.UCRIT * m.N * m.L) * (√ifn - 0.75 * log ifn)) - 0.5) +
    m.Vth * (log (0.5 * (m.UCRIT * m.N * m.L) / m.Vth) - 0.6) = a
  generalize 4 * m.Vth * √(m.LAMBDA * (√ifn - m.UCRIT * m.N * m.L * (√(0.25 + m.Vth / (m.UCRIT * m.N * m.L) * √ifn) - 0.5) / m.Vth) + 1 / 64) = d
  have hds : 0 ≤ (vd - vs) * 0.5 * m.Vth := by
    have : 0 ≤ vd - vs := by linarith
    positivity
  have h1 := hyp_le a ((vd - vs) * 0.5 * m.Vth - a) d
  have h2 := hyp_le ((vd - vs) * 0.5 * m.Vth - a) a d
  have e1 : √(((vd - vs) * 0.5 * m.Vth - a) ^ 2 + d ^ 2) = √((a - (vd - vs) * 0.5 * m.Vth) ^ 2 + d ^ 2) := by
    congr 2; ring
  have h3 := hyp_le a (a - (vd - vs) * 0.5 * m.Vth) d
  have h4 := hyp_le (a - (vd - vs) * 0.5 * m.Vth) a d
  rw [← e1, show a - (a - (vd - vs) * 0.5 * m.Vth) = (vd - vs) * 0.5 * m.Vth by ring, abs_of_nonneg hds] at h3
  rw [← e1, show a - (vd - vs) * 0.5 * m.Vth - a = -((vd - vs) * 0.5 * m.Vth) by ring, abs_neg, abs_of_nonneg hds] at h4
  constructor
  · rw [le_div_iff₀ hv, sub_mul, div_mul_cancel₀ _ hv.ne']
    linarith
  · rw [div_le_iff₀ hv, sub_mul (vp / m.Vth), div_mul_cancel₀ _ hv.ne']
    linarith

/-- C180, refuted for whole devices: a new n-type transistor passes no current at all if the pinch-off voltage is two thermal
voltages or more (up to 1000) below the voltages of source and drain. -/
theorem C180_no_current_refuted (guard : Bool) (m : EM) (hv : 0 < m.Vth) (hn : m.NPMOS = 1) (ism : ℝ → ℝ)
    (hi : ∀ v i, ismall guard eps64 v initGuess = .ok i → ism v = i) (vd vg vs : ℝ) (h : vs ≤ vd)
    (h1 : m.vp vg / m.Vth - vs / m.Vth ≤ -2) (h2 : -1000 ≤ m.vp vg / m.Vth - vd / m.Vth) :
    m.ids ism vd vg vs = 0 := by
  have hsd : vs / m.Vth ≤ vd / m.Vth := by gcongr
  have e1 := hi _ _ (C180_new_device_refuted.1 guard _ (by linarith) h1)
  obtain ⟨b1, b2⟩ := leqVirp_between m hv hsd (m.vp vg) (10 * eps64.eps)
  have e2 := hi _ _ (C180_new_device_refuted.1 guard _ (h2.trans b1) (b2.trans h1))
  have hvo : m.voltages vd vg vs = ((vd, vg, vs), 1) := by
    unfold EM.voltages
    simp [hn, not_lt.2 h]
  unfold EM.ids EM.norm
  simp only [hvo]
  rw [e1, e2, sub_self, mul_zero]

/-- a transistor with source at 0 V, drain at 1 V and a gate voltage of 0.3 V (threshold 0.5 V) -/
example (guard : Bool) (ism : ℝ → ℝ) (hi : ∀ v i, ismall guard eps64 v initGuess = .ok i → ism v = i) :
    EM.ids ⟨1, 0.5, 1, 1, 1e-4, 0.5, 1e6, 1e-7, 0.025, 1e-5, 1e-6, 1, 1⟩ ism 1 0.3 0 = 0 := by
  set m : EM := ⟨1, 0.5, 1, 1, 1e-4, 0.5, 1e6, 1e-7, 0.025, 1e-5, 1e-6, 1, 1⟩ with hm
  have hvp : -0.3 < m.vp 0.3 ∧ m.vp 0.3 < -0.1 := by
    have e : m.vp 0.3 = -0.2 - (√2.05 - 1.5) := by
      simp only [EM.vp, hm, Real.sqrt_one]
      norm_num
    have h1 : (1.43 : ℝ) < √2.05 := by rw [Real.lt_sqrt (by norm_num)]; norm_num
    have h2 : √2.05 < (1.44 : ℝ) := by rw [Real.sqrt_lt' (by norm_num)]; norm_num
    rw [e]
    constructor <;> linarith
  have hT : m.Vth = 0.025 := rfl
  refine C180_no_current_refuted guard m (by rw [hT]; norm_num) rfl ism hi 1 0.3 0 (by norm_num) ?_ ?_
  · rw [hT]
    norm_num
    linarith
  · rw [hT]
    norm_num
    linarith

/-- hypotheses of C180_close_partial and C180_fixed_partial -/
example : ismall true eps64 (vOf 1) 1 = .ok 1 := by
  have h := C180_fixed_partial true eps64 (vOf 1)
  rw [sol_vOf one_pos] at h
  rw [h, max_eq_left]
  change 10 * (1 / 2 ^ 52 : ℝ) ≤ 1
  norm_num

end Verif.Ekv
