import Verif.Model.Tunnel
import Mathlib.Analysis.SpecialFunctions.Sqrt
import Mathlib.Analysis.SpecialFunctions.ExpDeriv
import Mathlib.Tactic.Linarith
import Mathlib.Tactic.FieldSimp
import Mathlib.Tactic.Positivity

/-!
Properties C135 (conductance), C136 (Simmons' formula), C137 (passivity) and C138 (range of voltages) of the tunnel
junction.
-/

namespace Verif.Tunnel
open Verif.Circuit (Err)

/-- the constants of nature are positive -/
structure Consts.Phys (k : Consts) : Prop where
  q : 0 < k.q
  hbar : 0 < k.hbar
  m : 0 < k.m

/-- the decay constant times the thickness, `d` in ångström (spec) -/
noncomputable def decay (k : Consts) (d : ℝ) : ℝ := 2 * Real.sqrt (2 * k.m) / k.hbar * (d * (1 / 10 ^ 10))

/-- contribution of electrons that see a barrier of height `E` (spec) -/
noncomputable def emit (a E : ℝ) : ℝ := E * Real.exp (-(a * Real.sqrt E))

theorem decay_pos {k : Consts} (hk : k.Phys) {d : ℝ} (hd : 0 < d) : 0 < decay k d := by
  have := hk.m
  have := hk.hbar
  unfold decay
  positivity

theorem factor_pos {k : Consts} (hk : k.Phys) {d : ℝ} (hd : d ≠ 0) : 0 < factor k d := by
  have := hk.q
  have := hk.hbar
  have := Real.pi_pos
  unfold factor
  positivity

theorem term_emit (k : Consts) (V PHI d fr : ℝ) :
    term k V PHI (d * (1 / 10 ^ 10)) fr = emit (decay k d) (endiff k V PHI fr) := by
  unfold term emit expfr decay
  congr 2
  ring

theorem current_emit (k : Consts) (phiB d V : ℝ) :
    current k phiB d V = factor k d * (emit (decay k d) (endiff k V (phiB * k.q) 1) -
      emit (decay k d) (endiff k V (phiB * k.q) (-1))) := by
  unfold current
  rw [term_emit, term_emit]

/-- the derivative of `emit` -/
noncomputable def emit' (a E : ℝ) : ℝ := Real.exp (-(a * Real.sqrt E)) * (1 - a * Real.sqrt E / 2)

theorem emit_deriv (a : ℝ) {E : ℝ} (hE : 0 < E) : HasDerivAt (emit a) (emit' a E) E := by
  have h1 : HasDerivAt (fun E => -(a * Real.sqrt E)) (-(a * (1 / (2 * Real.sqrt E)))) E :=
    ((Real.hasDerivAt_sqrt hE.ne').const_mul a).neg
  have h2 := (hasDerivAt_id E).mul h1.exp
  refine h2.congr_deriv ?_
  have hs : Real.sqrt E * Real.sqrt E = E := Real.mul_self_sqrt hE.le
  have hs0 : Real.sqrt E ≠ 0 := (Real.sqrt_pos.2 hE).ne'
  unfold emit'
  simp only [id]
  have : E * (1 / (2 * Real.sqrt E)) = Real.sqrt E / 2 := by
    field_simp
    rw [sq, hs]
  linear_combination (-(Real.exp (-(a * Real.sqrt E)) * a)) * this

theorem dTerm_emit (k : Consts) (V PHI d fr : ℝ) (hE : 0 < endiff k V PHI fr) :
    dTerm k V PHI (d * (1 / 10 ^ 10)) fr = emit' (decay k d) (endiff k V PHI fr) * dEndiff k fr := by
  have hs : Real.sqrt (endiff k V PHI fr) * Real.sqrt (endiff k V PHI fr) = endiff k V PHI fr :=
    Real.mul_self_sqrt hE.le
  have hs0 : Real.sqrt (endiff k V PHI fr) ≠ 0 := (Real.sqrt_pos.2 hE).ne'
  unfold dTerm dExpfr expfr emit' decay
  have e1 : -(2 * Real.sqrt (2 * k.m)) / k.hbar * Real.sqrt (endiff k V PHI fr) * (d * (1 / 10 ^ 10)) =
      -(2 * Real.sqrt (2 * k.m) / k.hbar * (d * (1 / 10 ^ 10)) * Real.sqrt (endiff k V PHI fr)) := by ring
  have e2 : -(2 * Real.sqrt (2 * k.m) / k.hbar * Real.sqrt (endiff k V PHI fr) * (d * (1 / 10 ^ 10))) =
      -(2 * Real.sqrt (2 * k.m) / k.hbar * (d * (1 / 10 ^ 10)) * Real.sqrt (endiff k V PHI fr)) := by ring
  rw [e1, e2]
  have e3 : (1 / Real.sqrt (endiff k V PHI fr)) * endiff k V PHI fr = Real.sqrt (endiff k V PHI fr) := by
    rw [one_div, inv_mul_eq_div, div_eq_iff hs0, hs]
  generalize Real.exp (-(2 * Real.sqrt (2 * k.m) / k.hbar * (d * (1 / 10 ^ 10)) * Real.sqrt (endiff k V PHI fr))) = X
  generalize Real.sqrt (endiff k V PHI fr) = S at *
  generalize endiff k V PHI fr = E at *
  generalize Real.sqrt (2 * k.m) = R
  linear_combination (-(2 * R) / k.hbar * (d * (1 / 10 ^ 10)) / 2 * dEndiff k fr * X) * e3

/-- the differences are positive exactly between minus and plus the barrier -/
theorem endiff_pos {k : Consts} (hk : k.Phys) (phiB V : ℝ) :
    (0 < endiff k V (phiB * k.q) 1 ↔ V < phiB) ∧ (0 < endiff k V (phiB * k.q) (-1) ↔ -phiB < V) := by
  have hq := hk.q
  unfold endiff
  constructor <;> constructor <;> intro h <;> nlinarith

theorem endiff_nonneg {k : Consts} (hk : k.Phys) (phiB V : ℝ) :
    (0 ≤ endiff k V (phiB * k.q) 1 ↔ V ≤ phiB) ∧ (0 ≤ endiff k V (phiB * k.q) (-1) ↔ -phiB ≤ V) := by
  have hq := hk.q
  unfold endiff
  constructor <;> constructor <;> intro h <;> nlinarith

theorem current_deriv {k : Consts} (hk : k.Phys) (phiB d V : ℝ) (h1 : V < phiB) (h2 : -phiB < V) :
    HasDerivAt (current k phiB d) (conductance k phiB d V) V := by
  have p1 := (endiff_pos hk phiB V).1.2 h1
  have p2 := (endiff_pos hk phiB V).2.2 h2
  have hE : ∀ fr : ℝ, HasDerivAt (fun V => endiff k V (phiB * k.q) fr) (dEndiff k fr) V := by
    intro fr
    have : HasDerivAt (fun V => (phiB * k.q - fr * k.q * V) / 2) ((0 - fr * k.q * 1) / 2) V :=
      (((hasDerivAt_const V (phiB * k.q)).sub ((hasDerivAt_id V).const_mul (fr * k.q)))).div_const 2
    refine this.congr_deriv ?_
    unfold dEndiff
    ring
  have d1 := (emit_deriv (decay k d) p1).comp V (hE 1)
  have d2 := (emit_deriv (decay k d) p2).comp V (hE (-1))
  have := (d1.sub d2).const_mul (factor k d)
  have hfun : current k phiB d = fun V => factor k d * (emit (decay k d) (endiff k V (phiB * k.q) 1) -
      emit (decay k d) (endiff k V (phiB * k.q) (-1))) := funext (current_emit k phiB d)
  rw [hfun]
  refine this.congr_deriv ?_
  unfold conductance
  rw [dTerm_emit k V _ d 1 p1, dTerm_emit k V _ d (-1) p2]

/-! ### C138: voltages for which there is a current -/

/-- C138: `get_i` and `get_gm` fail exactly as follows (`exn` is `ZeroDivisionError`). -/
theorem C138_range_partial {k : Consts} (hk : k.Phys) (phiB d V : ℝ) (hd : d ≠ 0) :
    (|V| ≤ phiB → getI k phiB d V = .ok (current k phiB d V)) ∧
      (|V| < phiB → getGm k phiB d V = .ok (conductance k phiB d V)) := by
  constructor <;> intro h
  · obtain ⟨h1, h2⟩ := abs_le.1 h
    have p1 := (endiff_nonneg hk phiB V).1.2 h2
    have p2 := (endiff_nonneg hk phiB V).2.2 h1
    rw [getI, if_neg hd, if_neg (not_lt.2 p1), if_neg (not_lt.2 p2)]
  · obtain ⟨h1, h2⟩ := abs_lt.1 h
    have p1 := (endiff_pos hk phiB V).1.2 h2
    have p2 := (endiff_pos hk phiB V).2.2 h1
    rw [getGm, if_neg hd, if_neg (not_lt.2 p1.le), if_neg p1.ne', if_neg (not_lt.2 p2.le), if_neg p2.ne']

/-- C138 refuted: a voltage beyond the barrier, which a Newton iteration may well try, is a `ValueError`; the
conductance at the barrier is a `ZeroDivisionError`. -/
theorem C138_beyond_refuted {k : Consts} (hk : k.Phys) (phiB d V : ℝ) (hd : d ≠ 0) :
    (phiB < |V| → getI k phiB d V = .error .value) ∧
      (0 < phiB → |V| = phiB → getGm k phiB d V = .error .exn) := by
  constructor
  · intro h
    by_cases h1 : V ≤ phiB
    · have p1 := (endiff_nonneg hk phiB V).1.2 h1
      have h2 : ¬ -phiB ≤ V := fun h2 => absurd (abs_le.2 ⟨h2, h1⟩) (not_le.2 h)
      have p2 := mt (endiff_nonneg hk phiB V).2.1 h2
      rw [getI, if_neg hd, if_neg (not_lt.2 p1), if_pos (not_le.1 p2)]
    · have p1 := mt (endiff_nonneg hk phiB V).1.1 h1
      rw [getI, if_neg hd, if_pos (not_le.1 p1)]
  · intro h0 h
    rcases abs_choice V with hV | hV
    · have e1 : endiff k V (phiB * k.q) 1 = 0 := by rw [← h, hV]; unfold endiff; ring
      rw [getGm, if_neg hd, if_neg (by rw [e1]; exact lt_irrefl _), if_pos e1]
    · have hV' : V = -phiB := by linarith
      have e1 : endiff k V (phiB * k.q) (-1) = 0 := by rw [hV']; unfold endiff; ring
      have p1 := (endiff_pos hk phiB V).1.2 (by linarith)
      rw [getGm, if_neg hd, if_neg (not_lt.2 p1.le), if_neg p1.ne', if_neg (by rw [e1]; exact lt_irrefl _), if_pos e1]

/-! ### C135: conductance -/

/-- C135: whenever a conductance is returned, it is the derivative of the current returned. -/
theorem C135_conductance {k : Consts} (hk : k.Phys) (phiB d V g : ℝ) (h : getGm k phiB d V = .ok g) :
    HasDerivAt (fun v => (getI k phiB d v).toOption.getD 0) g V := by
  unfold getGm at h
  split_ifs at h with hd n1 z1 n2 z2
  have hg : g = conductance k phiB d V := by cases h; rfl
  have p1 := lt_of_le_of_ne (not_lt.1 n1) (Ne.symm z1)
  have p2 := lt_of_le_of_ne (not_lt.1 n2) (Ne.symm z2)
  have v1 := (endiff_pos hk phiB V).1.1 p1
  have v2 := (endiff_pos hk phiB V).2.1 p2
  rw [hg]
  refine (current_deriv hk phiB d V v1 v2).congr_of_eventuallyEq ?_
  filter_upwards [Ioo_mem_nhds v2 v1] with v hv
  rw [(C138_range_partial hk phiB d v hd).1 (abs_le.2 ⟨hv.1.le, hv.2.le⟩)]
  rfl

/-- C135: the current is an odd function of the voltage, in particular zero without voltage. -/
theorem C135_odd (k : Consts) (phiB d V : ℝ) :
    current k phiB d (-V) = -current k phiB d V ∧ current k phiB d 0 = 0 := by
  have e1 : ∀ V, endiff k (-V) (phiB * k.q) 1 = endiff k V (phiB * k.q) (-1) := fun V => by unfold endiff; ring
  have key : ∀ V, current k phiB d (-V) = -current k phiB d V := by
    intro V
    rw [current_emit, current_emit, e1, ← e1 (-V), neg_neg]
    ring
  refine ⟨key V, ?_⟩
  have := key 0
  rw [neg_zero] at this
  linarith

/-! ### C136: Simmons' formula -/

/-- Simmons' formula for the current, with the barrier `phiB` in volt and the thickness `d` in ångström; `2π·hbar` is Planck's
constant (spec) -/
noncomputable def simmons (k : Consts) (phiB d V : ℝ) : ℝ :=
  k.q / (2 * Real.pi * (2 * Real.pi * k.hbar) * (d * (1 / 10 ^ 10)) ^ 2) * (emit (decay k d) (phiB * k.q - k.q * V / 2) - emit (decay k d) (phiB * k.q + k.q * V / 2))

/-- C136: the current is that of Simmons' formula for half the barrier asked for. -/
theorem C136_half_partial (k : Consts) (phiB d V : ℝ) : current k phiB d V = simmons k (phiB / 2) d V := by
  rw [current_emit]
  unfold simmons endiff factor
  congr 2
  · ring
  · congr 1; ring
  · congr 1; ring

/-- above `a√E = 2` a higher barrier passes less -/
theorem emit_anti {a E F : ℝ} (ha : 0 < a) (hE : 0 ≤ E) (h2 : 2 ≤ a * Real.sqrt E) (h : E < F) : emit a F < emit a E := by
  have hF : 0 ≤ F := hE.trans h.le
  have hs : Real.sqrt E < Real.sqrt F := Real.sqrt_lt_sqrt hE h
  set s := a * Real.sqrt E with hsdef
  set t := a * Real.sqrt F with htdef
  have hst : s < t := mul_lt_mul_of_pos_left hs ha
  have e1 : a ^ 2 * emit a E = s ^ 2 * Real.exp (-s) := by
    unfold emit
    rw [← hsdef]
    have : s ^ 2 = a ^ 2 * E := by rw [hsdef, mul_pow, Real.sq_sqrt hE]
    rw [this]; ring
  have e2 : a ^ 2 * emit a F = t ^ 2 * Real.exp (-t) := by
    unfold emit
    rw [← htdef]
    have : t ^ 2 = a ^ 2 * F := by rw [htdef, mul_pow, Real.sq_sqrt hF]
    rw [this]; ring
  have hx : t < s * Real.exp ((t - s) / 2) := by
    have h3 : (t - s) / 2 + 1 < Real.exp ((t - s) / 2) := Real.add_one_lt_exp (half_pos (sub_pos.2 hst)).ne'
    nlinarith
  have hsq : t ^ 2 < s ^ 2 * Real.exp (t - s) := by
    have h4 : Real.exp (t - s) = Real.exp ((t - s) / 2) ^ 2 := by rw [← Real.exp_nat_mul]; congr 1; push_cast; ring
    rw [h4, ← mul_pow]
    exact pow_lt_pow_left₀ hx (by linarith) (by norm_num)
  have hfin : t ^ 2 * Real.exp (-t) < s ^ 2 * Real.exp (-s) := by
    have h5 := mul_lt_mul_of_pos_right hsq (Real.exp_pos (-t))
    rwa [mul_assoc, ← Real.exp_add, show t - s + -t = -s by ring] at h5
  rw [← e1, ← e2] at hfin
  exact lt_of_mul_lt_mul_left hfin (by positivity)

/-- C136 refuted: with a barrier of the height asked for, the current at `V = phiB` is positive; the current computed
there is negative, for every junction that is not extremely thin. -/
theorem C136_barrier_refuted {k : Consts} (hk : k.Phys) (phiB d : ℝ) (hp : 0 < phiB) (hd : 0 < d)
    (hthick : 2 ≤ decay k d * Real.sqrt (phiB * k.q / 2)) :
    getI k phiB d phiB = .ok (current k phiB d phiB) ∧ current k phiB d phiB < 0 ∧ 0 < simmons k phiB d phiB := by
  have hq := hk.q
  have hf := factor_pos hk hd.ne'
  refine ⟨(C138_range_partial hk phiB d phiB hd.ne').1 (abs_of_pos hp).le, ?_, ?_⟩
  · rw [current_emit]
    have e1 : endiff k phiB (phiB * k.q) 1 = 0 := by unfold endiff; ring
    have e2 : endiff k phiB (phiB * k.q) (-1) = phiB * k.q := by unfold endiff; ring
    rw [e1, e2]
    have : 0 < emit (decay k d) (phiB * k.q) := by unfold emit; positivity
    have h0 : emit (decay k d) 0 = 0 := by simp [emit]
    rw [h0]
    nlinarith
  · unfold simmons
    have e1 : phiB * k.q - k.q * phiB / 2 = phiB * k.q / 2 := by ring
    rw [e1]
    have := emit_anti (decay_pos hk hd) (by positivity) hthick
      (show phiB * k.q / 2 < phiB * k.q + k.q * phiB / 2 by nlinarith [mul_pos hp hq])
    have hh := hk.hbar
    have hpi := Real.pi_pos
    exact mul_pos (by positivity) (by linarith)

/-! ### C137: passivity -/

/-- C137 (partial: voltages at which the lower side of the barrier is still opaque): the current has the sign of the
voltage. -/
theorem C137_passive_partial {k : Consts} (hk : k.Phys) (phiB d V : ℝ) (hd : 0 < d) (hV : 0 < V) (hb : V ≤ phiB)
    (hthick : 2 ≤ decay k d * Real.sqrt ((phiB - V) * k.q / 2)) :
    getI k phiB d V = .ok (current k phiB d V) ∧ 0 < current k phiB d V := by
  have hq := hk.q
  refine ⟨(C138_range_partial hk phiB d V hd.ne').1 (by rwa [abs_of_pos hV]), ?_⟩
  rw [current_emit]
  have e1 : endiff k V (phiB * k.q) 1 = (phiB - V) * k.q / 2 := by unfold endiff; ring
  have e2 : endiff k V (phiB * k.q) (-1) = (phiB + V) * k.q / 2 := by unfold endiff; ring
  rw [e1, e2]
  have h0 : 0 ≤ (phiB - V) * k.q / 2 := by
    have := mul_nonneg (sub_nonneg.2 hb) hq.le
    linarith
  have := emit_anti (decay_pos hk hd) h0 hthick
    (show (phiB - V) * k.q / 2 < (phiB + V) * k.q / 2 by nlinarith)
  exact mul_pos (factor_pos hk hd.ne') (by linarith)

theorem exp_half_bound {s : ℝ} (h : s ≤ 1 / 2) : 3 / 8 ≤ Real.exp (-s) * (1 - s / 2) := by
  have h1 : 1 - s ≤ Real.exp (-s) := by have := Real.add_one_le_exp (-s); linarith
  nlinarith

theorem exp_neg_bound {s : ℝ} (h0 : 0 ≤ s) : -(1 / 4) ≤ Real.exp (-s) * (1 - s / 2) := by
  have h1 : 1 + s + s ^ 2 / 2 ≤ Real.exp s := by
    have := Real.quadratic_le_exp_of_nonneg h0
    linarith
  have h2 : 2 * s ≤ Real.exp s := by nlinarith [sq_nonneg (s - 1)]
  have h3 : Real.exp (-s) * Real.exp s = 1 := by rw [← Real.exp_add]; simp
  have h4 := Real.exp_pos (-s)
  have h5 : Real.exp (-s) * (2 * s) ≤ 1 := by
    rw [← h3]
    exact mul_le_mul_of_nonneg_left h2 h4.le
  nlinarith

/-- C137 refuted: whatever the junction, there is a positive voltage below the barrier with a negative conductance. -/
theorem C137_negative_refuted {k : Consts} (hk : k.Phys) (phiB d : ℝ) (hp : 0 < phiB) (hd : 0 < d) :
    ∃ V g, 0 < V ∧ V < phiB ∧ getGm k phiB d V = .ok g ∧ g < 0 := by
  have hq := hk.q
  have ha := decay_pos hk hd
  set a := decay k d with hadef
  -- the height of the lower side
  set E := min ((1 / (2 * a)) ^ 2) (phiB * k.q / 4) with hEdef
  have hE0 : 0 < E := lt_min (by positivity) (by positivity)
  have hE1 : E ≤ (1 / (2 * a)) ^ 2 := min_le_left ..
  have hE2 : E ≤ phiB * k.q / 4 := min_le_right ..
  set V := phiB - 2 * E / k.q with hVdef
  have hE3 : 2 * E / k.q ≤ phiB / 2 := by
    rw [div_le_iff₀ hq]
    linarith
  have hE4 : 0 < 2 * E / k.q := by positivity
  have hV0 : 0 < V := by linarith
  have hV1 : V < phiB := by linarith
  refine ⟨V, conductance k phiB d V, hV0, hV1, (C138_range_partial hk phiB d V hd.ne').2 (by rwa [abs_of_pos hV0]), ?_⟩
  have e1 : endiff k V (phiB * k.q) 1 = E := by
    unfold endiff
    rw [hVdef]
    field_simp
    ring
  have p1 := (endiff_pos hk phiB V).1.2 hV1
  have p2 := (endiff_pos hk phiB V).2.2 (by linarith)
  unfold conductance
  rw [dTerm_emit k V _ d 1 p1, dTerm_emit k V _ d (-1) p2, e1, ← hadef]
  have hs : a * Real.sqrt E ≤ 1 / 2 := by
    have : Real.sqrt E ≤ 1 / (2 * a) := Real.sqrt_le_iff.2 ⟨by positivity, hE1⟩
    calc a * Real.sqrt E ≤ a * (1 / (2 * a)) := mul_le_mul_of_nonneg_left this ha.le
      _ = 1 / 2 := by field_simp
  have b1 : 3 / 8 ≤ emit' a E := exp_half_bound hs
  have b2 : -(1 / 4) ≤ emit' a (endiff k V (phiB * k.q) (-1)) := exp_neg_bound (by positivity)
  have hf := factor_pos hk hd.ne'
  have : emit' a E * dEndiff k 1 - emit' a (endiff k V (phiB * k.q) (-1)) * dEndiff k (-1) < 0 := by
    unfold dEndiff
    nlinarith
  nlinarith

/-- constants with `2 * sqrt (2 * m) / hbar * 1e-10 = 2` -/
noncomputable def demo : Consts := ⟨1, 1 / 10 ^ 10, 1 / 2⟩

theorem demo_phys : demo.Phys := by constructor <;> norm_num [demo]

example : demo.Phys ∧ 2 ≤ decay demo 1 * Real.sqrt (10 * demo.q / 2) ∧
    2 ≤ decay demo 1 * Real.sqrt ((10 - 1) * demo.q / 2) := by
  have hd : decay demo 1 = 2 := by norm_num [decay, demo]
  have h1 : (1 : ℝ) ≤ Real.sqrt (10 * demo.q / 2) := by rw [Real.one_le_sqrt]; norm_num [demo]
  have h2 : (1 : ℝ) ≤ Real.sqrt ((10 - 1) * demo.q / 2) := by rw [Real.one_le_sqrt]; norm_num [demo]
  rw [hd]
  exact ⟨demo_phys, by linarith, by linarith⟩

end Verif.Tunnel
