import Verif.Model.Switch
import Mathlib.Analysis.SpecialFunctions.Artanh
import Mathlib.Analysis.SpecialFunctions.Trigonometric.DerivHyp
import Mathlib.Tactic.Linarith
import Mathlib.Tactic.FieldSimp
import Mathlib.Tactic.Ring
import Mathlib.Tactic.NormNum
import Mathlib.Tactic.Positivity

/-!
Properties C40 (resistance and state of the switch), C41 (its conductances) and C89 (when it
switches).
-/

namespace Verif.Switch
open Real

theorem tanh_bounds (x : ℝ) : -1 < tanh x ∧ tanh x < 1 := by
  have h := tanh_bijOn.mapsTo (Set.mem_univ x)
  exact ⟨h.1, h.2⟩

theorem hasDerivAt_tanh (x : ℝ) : HasDerivAt tanh (1 - tanh x ^ 2) x := by
  have hc : cosh x ≠ 0 := (cosh_pos x).ne'
  have h := (hasDerivAt_sinh x).div (hasDerivAt_cosh x) hc
  have e : (sinh / cosh : ℝ → ℝ) = tanh := by
    funext y; rw [Pi.div_apply, tanh_eq_sinh_div_cosh]
  rw [e] at h
  have e2 : 1 - tanh x ^ 2 = (cosh x * cosh x - sinh x * sinh x) / cosh x ^ 2 := by
    rw [tanh_eq_sinh_div_cosh]
    field_simp
  rw [e2]
  exact h

theorem tanh_strictMono : StrictMono tanh := by
  apply strictMono_of_deriv_pos
  intro x
  rw [(hasDerivAt_tanh x).deriv]
  have := tanh_bounds x
  nlinarith

theorem V_on (p : Sw) : p.V true = p.VT - p.VH := by simp [Sw.V]
theorem V_off (p : Sw) : p.V false = p.VT + p.VH := by simp [Sw.V]; ring

/-! ### C40 -/

/-- C40: the resistance lies strictly between `RON` and `ROFF`; in particular it is positive. -/
theorem C40_range (p : Sw) (h : 0 < p.RON) (h2 : p.RON < p.ROFF) (on : Bool) (vin : ℝ) :
    p.RON < p.R tanh on vin ∧ p.R tanh on vin < p.ROFF ∧ 0 < p.R tanh on vin := by
  obtain ⟨h3, h4⟩ := tanh_bounds ((vin - p.V on) * slope)
  unfold Sw.R Sw.A Sw.B
  refine ⟨?_, ?_, ?_⟩ <;> nlinarith

/-- C40: the same bounds, not strict, for any function with values between -1 and 1, such as the
floating point `tanh`. -/
theorem C40_range_rounded (p : Sw) (h : 0 < p.RON) (h2 : p.RON < p.ROFF) (th : ℝ → ℝ)
    (hth : ∀ x, -1 ≤ th x ∧ th x ≤ 1) (on : Bool) (vin : ℝ) :
    p.RON ≤ p.R th on vin ∧ p.R th on vin ≤ p.ROFF ∧ 0 < p.R th on vin := by
  obtain ⟨h3, h4⟩ := hth ((vin - p.V on) * slope)
  unfold Sw.R Sw.A Sw.B
  refine ⟨?_, ?_, ?_⟩ <;> nlinarith

/-- C40: in a fixed state the resistance falls when the control voltage rises. -/
theorem C40_monotone (p : Sw) (h2 : p.RON < p.ROFF) (on : Bool) (v v' : ℝ) (hv : v < v') :
    p.R tanh on v' < p.R tanh on v := by
  have h := tanh_strictMono (show (v - p.V on) * slope < (v' - p.V on) * slope by
    unfold slope; nlinarith)
  unfold Sw.R Sw.A
  nlinarith

/-- C40: at the threshold of its state the resistance is the mean of `RON` and `ROFF`. -/
theorem C40_middle (p : Sw) (on : Bool) : p.R tanh on (p.V on) = (p.RON + p.ROFF) / 2 := by
  simp [Sw.R, Sw.B]

/-- C40: the state changes only when the control voltage is above `VT + VH` (to on) or below
`VT - VH` (to off), whatever the rounding of `tanh`. -/
theorem C40_flip (p : Sw) (th : ℝ → ℝ) (vin : ℝ) :
    (p.update th vin false = true → p.VT + p.VH < vin) ∧
    (p.update th vin true = false → vin < p.VT - p.VH) := by
  constructor
  · intro h
    unfold Sw.update at h
    simp only at h
    by_contra hn
    have hv : ¬ vin > p.V false := by rw [V_off]; linarith
    simp [hv] at h
  · intro h
    unfold Sw.update at h
    simp only at h
    by_contra hn
    have hv : ¬ vin < p.V true := by rw [V_on]; exact hn
    simp [hv] at h

/-- C40: inside the hysteresis window the state is kept. -/
theorem C40_window (p : Sw) (th : ℝ → ℝ) (vin : ℝ) (on : Bool) (h1 : p.VT - p.VH ≤ vin)
    (h2 : vin ≤ p.VT + p.VH) : p.update th vin on = on := by
  obtain ⟨ha, hb⟩ := C40_flip p th vin
  cases on
  · by_contra hn
    have := ha (by simpa using hn)
    linarith
  · by_contra hn
    have := hb (by simpa using hn)
    linarith

/-- C40: in every history, a change of state at an evaluation means that its control voltage is
outside the window, on the side of the new state. -/
theorem C40_history (p : Sw) (th : ℝ → ℝ) (on : Bool) (vs : List ℝ) (k : Nat) (a b : Bool)
    (ha : (on :: p.history th on vs)[k]? = some a) (hb : (p.history th on vs)[k]? = some b)
    (hab : a ≠ b) : ∃ v, vs[k]? = some v ∧
      ((b = true ∧ p.VT + p.VH < v) ∨ (b = false ∧ v < p.VT - p.VH)) := by
  induction vs generalizing on k with
  | nil => simp [Sw.history] at hb
  | cons v vs ih =>
    cases k with
    | zero =>
      simp only [Sw.history, List.getElem?_cons_zero, Option.some.injEq] at ha hb
      refine ⟨v, by simp, ?_⟩
      obtain ⟨h1, h2⟩ := C40_flip p th v
      subst ha
      cases on
      · have : b = true := by cases b <;> simp_all
        left; exact ⟨this, h1 (by rw [hb, this])⟩
      · have : b = false := by cases b <;> simp_all
        right; exact ⟨this, h2 (by rw [hb, this])⟩
    | succ k =>
      simp only [Sw.history, List.getElem?_cons_succ] at ha hb ⊢
      exact ih _ _ ha hb

/-! ### C89 -/

/-- C89: without hysteresis the switch is on above `VT` and off below, whatever the rounding. -/
theorem C89_no_hysteresis (p : Sw) (th : ℝ → ℝ) (h : p.VH = 0) (vin : ℝ) (on : Bool) :
    (p.VT < vin → p.update th vin on = true) ∧ (vin < p.VT → p.update th vin on = false) := by
  have hV : ∀ b, p.V b = p.VT := by intro b; cases b <;> simp [Sw.V, h]
  have hr : p.R th on vin - p.R th (!on) vin = 0 := by simp [Sw.R, hV]
  constructor
  · intro hv
    unfold Sw.update
    simp only [hV, hr]
    cases on <;> simp [hv, not_lt.2 hv.le]
  · intro hv
    unfold Sw.update
    simp only [hV, hr]
    cases on <;> simp [hv, not_lt.2 hv.le]

/-- C89: if `tanh` is rounded to ±1 from `s` on, the switch closes at `VT + VH + s/100` and above, and
opens at `VT - VH - s/100` and below. Missing: the control voltages in between. -/
theorem C89_saturated_partial (p : Sw) (th : ℝ → ℝ) (s : ℝ) (hs : 0 < s)
    (h1 : ∀ x, s ≤ x → th x = 1) (h2 : ∀ x, x ≤ -s → th x = -1) (hh : 0 ≤ p.VH)
    (vin : ℝ) (on : Bool) :
    (p.VT + p.VH + s / 100 ≤ vin → p.update th vin on = true) ∧
    (vin ≤ p.VT - p.VH - s / 100 → p.update th vin on = false) := by
  constructor
  · intro hv
    have hR : ∀ b, p.R th b vin = p.A * 1 + p.B := by
      intro b
      unfold Sw.R
      rw [h1]
      cases b
      · rw [V_off]; unfold slope; linarith
      · rw [V_on]; unfold slope; linarith
    have hr : p.R th on vin - p.R th (!on) vin = 0 := by rw [hR, hR]; ring
    unfold Sw.update
    simp only [hr]
    have g1 : vin > p.V false := by rw [V_off]; linarith
    have g2 : ¬ vin < p.V true := by rw [V_on]; linarith
    cases on <;> simp [g1, g2]
  · intro hv
    have hR : ∀ b, p.R th b vin = p.A * (-1) + p.B := by
      intro b
      unfold Sw.R
      rw [h2]
      cases b
      · rw [V_off]; unfold slope; linarith
      · rw [V_on]; unfold slope; linarith
    have hr : p.R th on vin - p.R th (!on) vin = 0 := by rw [hR, hR]; ring
    unfold Sw.update
    simp only [hr]
    have g1 : ¬ vin > p.V false := by rw [V_off]; linarith
    have g2 : vin < p.V true := by rw [V_on]; linarith
    cases on <;> simp [g1, g2]

/-- C89: with the exact `tanh` and hysteresis the state never changes, however large the control
voltage: the code relies on rounding. -/
theorem C89_exact_refuted (p : Sw) (hh : p.VH ≠ 0) (hr : p.RON ≠ p.ROFF) (vin : ℝ) (on : Bool) :
    p.update tanh vin on = on := by
  have hA : p.A ≠ 0 := by
    unfold Sw.A; intro h0
    exact hr (by linarith)
  have hne : p.R tanh on vin - p.R tanh (!on) vin ≠ 0 := by
    intro h0
    unfold Sw.R at h0
    have h1 : p.A * (tanh ((vin - p.V on) * slope) - tanh ((vin - p.V (!on)) * slope)) = 0 := by
      linarith
    rcases mul_eq_zero.1 h1 with h2 | h2
    · exact hA h2
    · have := tanh_injective (sub_eq_zero.1 h2)
      unfold slope at this
      apply hh
      cases on
      · simp only [Bool.not_false, V_off, V_on] at this; linarith
      · simp only [Bool.not_true, V_off, V_on] at this; linarith
  unfold Sw.update
  simp only
  rw [if_neg (fun h => hne h.2.2), if_neg (fun h => hne h.2.2)]

/-- C89: `VON` and `VOFF` given together determine the thresholds by the documented relations. -/
theorem C89_von_voff (gmin von voff : ℝ) (vt vh ron roff : Option ℝ) :
    ∃ p, mk gmin vt vh (some von) (some voff) ron roff = some p ∧ p.VT = (von + voff) / 2 ∧
      p.VH = p.VT / 1000 := by
  refine ⟨_, rfl, ?_, ?_⟩
  · simp only [Option.getD_some]; ring
  · simp only [Option.getD_some]; ring

/-- C89: defaults. -/
theorem C89_defaults (gmin : ℝ) :
    mk gmin none none none none none none = some ⟨0, 0, 1, 1 / gmin⟩ := rfl

/-- C89: with `VON` and `VOFF` of negative sum the hysteresis is negative, against the documented
restriction: at `VT` the switch keeps its state, open or closed, although this voltage is above the
one that closes it and below the one that opens it. -/
theorem C89_negative_refuted :
    ∃ p, mk (1 / 1000000000000) none none (some (-1000)) (some (-3000)) none none = some p ∧
      ∃ th : ℝ → ℝ, (∀ x, 20 ≤ x → th x = 1) ∧ (∀ x, x ≤ -20 → th x = -1) ∧
        p.VT + p.VH < -2000 ∧ -2000 < p.VT - p.VH ∧ ∀ on, p.update th (-2000) on = on ∧ 0 < -p.VH := by
  refine ⟨_, rfl, fun x => if 20 ≤ x then 1 else if x ≤ -20 then -1 else 0, ?_, ?_, ?_, ?_, ?_⟩
  · intro x hx; simp [hx]
  · intro x hx
    have : ¬ (20 : ℝ) ≤ x := by linarith
    simp [hx, this]
  · simp only [Option.getD_some]; norm_num
  · simp only [Option.getD_some]; norm_num
  · intro on
    constructor
    · unfold Sw.update
      have hne : ∀ b : Bool, Sw.R ⟨((-1000 : ℝ) - -3000) / 2 + -3000, (((-1000 : ℝ) - -3000) / 2 + -3000) * (1 / 1000), 1, 1 / (1 / 1000000000000)⟩ (fun x => if 20 ≤ x then 1 else if x ≤ -20 then -1 else 0) b (-2000) - Sw.R ⟨((-1000 : ℝ) - -3000) / 2 + -3000, (((-1000 : ℝ) - -3000) / 2 + -3000) * (1 / 1000), 1, 1 / (1 / 1000000000000)⟩ (fun x => if 20 ≤ x then 1 else if x ≤ -20 then -1 else 0) (!b) (-2000) ≠ 0 := by
        intro b
        cases b <;> simp [Sw.R, Sw.A, Sw.B, Sw.V, slope] <;> norm_num
      simp only [Option.getD_some, Option.getD_none]
      rw [if_neg (fun h => hne on h.2.2), if_neg (fun h => hne on h.2.2)]
    · simp only [Option.getD_some]; norm_num

/-! ### C41 -/

/-- C41: the output conductance is the derivative of the current with respect to the output
voltage. -/
theorem C41_go (p : Sw) (th : ℝ → ℝ) (vout vin : ℝ) (on : Bool) :
    HasDerivAt (fun v => p.i th v vin on) (p.go th vout vin on) vout := by
  unfold Sw.i Sw.go
  exact (hasDerivAt_id vout).div_const _

/-- The derivative of the current with respect to the control voltage in a fixed state. -/
theorem deriv_control (p : Sw) (h : 0 < p.RON) (h2 : p.RON < p.ROFF) (vout vin : ℝ) (on : Bool) :
    HasDerivAt (fun v => vout / p.R tanh on v)
      (vout * (p.A * slope * (tanh ((vin - p.V on) * slope) ^ 2 - 1) / p.R tanh on vin ^ 2)) vin := by
  have hR : p.R tanh on vin ≠ 0 := (C40_range p h h2 on vin).2.2.ne'
  have h1 : HasDerivAt (fun v => (v - p.V on) * slope) slope vin := by
    have := ((hasDerivAt_id vin).sub_const (p.V on)).mul_const slope
    simpa using this
  have h3 := ((hasDerivAt_tanh ((vin - p.V on) * slope)).comp vin h1).const_mul p.A
  have h4 := (h3.add_const p.B)
  have h5 := (hasDerivAt_const vin vout).div h4 hR
  have e : vout * (p.A * slope * (tanh ((vin - p.V on) * slope) ^ 2 - 1) / p.R tanh on vin ^ 2) =
      (0 * (p.A * tanh ((vin - p.V on) * slope) + p.B) -
        vout * (p.A * ((1 - tanh ((vin - p.V on) * slope) ^ 2) * slope))) / p.R tanh on vin ^ 2 := by
    ring
  rw [e]
  exact h5

theorem R_update (p : Sw) (hr : p.RON ≠ p.ROFF) (vin v : ℝ) (on : Bool) :
    p.R tanh (p.update tanh vin on) v = p.R tanh on v := by
  by_cases hh : p.VH = 0
  · have hV : ∀ b, p.V b = p.VT := by intro b; cases b <;> simp [Sw.V, hh]
    simp [Sw.R, hV]
  · rw [C89_exact_refuted p hh hr]

/-- C41: the transconductance times the output voltage is, up to `gmin`, the derivative of the
current with respect to the control voltage; so it is this derivative for an output voltage of one
volt. Missing (and false): the factor. -/
theorem C41_gm_partial (p : Sw) (h : 0 < p.RON) (h2 : p.RON < p.ROFF) (gmin vout vin : ℝ)
    (on : Bool) :
    HasDerivAt (fun v => p.i tanh vout v on) (vout * (p.gm tanh gmin vout vin on - gmin)) vin := by
  have h1 := deriv_control p h h2 vout vin (p.update tanh vin on)
  have e0 : (fun v => p.i tanh vout v on) = fun v => vout / p.R tanh (p.update tanh vin on) v := by
    funext v
    unfold Sw.i
    rw [R_update p h2.ne, R_update p h2.ne]
  rw [e0]
  convert h1 using 2
  unfold Sw.gm Sw.R
  have e : slope * (p.V (p.update tanh vin on) - vin) =
      -((vin - p.V (p.update tanh vin on)) * slope) := by ring
  simp only [e, Real.tanh_neg]
  rw [add_sub_cancel_right, neg_sq]
  congr 1
  ring

/-- C41: at output voltage zero the current does not depend on the control voltage, but the
transconductance is positive. -/
theorem C41_gm_refuted (p : Sw) (h2 : p.RON < p.ROFF) (gmin vin : ℝ)
    (hg : 0 < gmin) (on : Bool) :
    HasDerivAt (fun v => p.i tanh 0 v on) 0 vin ∧ 0 < p.gm tanh gmin 0 vin on := by
  constructor
  · unfold Sw.i
    simp only [zero_div]
    exact hasDerivAt_const _ _
  · unfold Sw.gm
    have hb := tanh_bounds (slope * (p.V (p.update tanh vin on) - vin))
    have hA : p.A < 0 := by unfold Sw.A; linarith
    have h1 : 0 < p.A * slope * (tanh (slope * (p.V (p.update tanh vin on) - vin)) ^ 2 - 1) := by
      unfold slope at hb ⊢
      have : tanh (100 * (p.V (p.update tanh vin on) - vin)) ^ 2 - 1 < 0 := by nlinarith
      nlinarith
    have h3 := div_nonneg h1.le (sq_nonneg (p.A * tanh (slope * (p.V (p.update tanh vin on) - vin)) - p.B))
    simp only
    linarith

example : (0 : ℝ) < (Sw.mk 1 (1/2) 1 1000).RON ∧ (Sw.mk 1 (1/2) 1 1000).RON < (Sw.mk 1 (1/2) 1 1000).ROFF ∧
    (Sw.mk 1 (1/2) 1 1000).VH ≠ 0 := by norm_num

end Verif.Switch
