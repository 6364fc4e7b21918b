import Verif.Model.Mosq
import Mathlib.Analysis.Calculus.Deriv.Add
import Mathlib.Analysis.Calculus.Deriv.Inv
import Mathlib.Analysis.SpecialFunctions.Sqrt
import Mathlib.Topology.Order.OrderClosed
import Mathlib.Tactic.Linarith
import Mathlib.Tactic.FieldSimp
import Mathlib.Tactic.Ring
import Mathlib.Tactic.NormNum
import Mathlib.Tactic.Positivity

/-!
Properties C43, C44 (current and transconductances of the square-law MOS transistor), the MOS part of C45
(stamp) and C47 (temperature).
-/

namespace Verif.Mosq
open Real

/-! ### A closed form of the current -/

/-- β·(W/L) with the Monte Carlo deviation. -/
noncomputable def MQ.beta (m : MQ) : ℝ := (m.skp + 1) * m.KP * m.W / m.L

/-- Boundary between the ohmic region and saturation for the overdrive `o`. -/
noncomputable def MQ.vdsat (m : MQ) (o : ℝ) : ℝ := o - 0.5 * m.LAMBDA * o ^ 2

/-- The current of a conducting device for the overdrive `o` and the drain voltage `x`. -/
noncomputable def MQ.on (m : MQ) (o x : ℝ) : ℝ :=
  m.beta * (o * x - 0.5 * x ^ 2 + 0.5 * (max (x - m.vdsat o) 0) ^ 2)

theorem ids0_on (m : MQ) (vds vgs vbs : ℝ) (h : m.vt vbs ≤ vgs) :
    m.ids0 vds vgs vbs = m.on (vgs - m.vt vbs) vds := by
  simp only [MQ.ids0, MQ.on, MQ.beta, MQ.vdsat]
  rw [if_neg (not_lt.2 h)]
  have e : (m.vt vbs - vgs) ^ 2 = (vgs - m.vt vbs) ^ 2 := by ring
  rw [e]
  by_cases hx : vds < vgs - m.vt vbs - 0.5 * m.LAMBDA * (vgs - m.vt vbs) ^ 2
  · rw [if_pos hx, max_eq_right (by linarith)]
    ring
  · rw [if_neg hx, max_eq_left (by linarith)]
    ring

theorem ids0_off (m : MQ) (vds vgs vbs : ℝ) (h : vgs < m.vt vbs) :
    m.ids0 vds vgs vbs = m.iea * (vgs / m.vt vbs + vds / m.vt vbs) / 100 := by
  simp only [MQ.ids0]
  rw [if_pos h]

theorem continuous_vt (m : MQ) : Continuous m.vt := by
  unfold MQ.vt MQ.vsq1
  fun_prop

theorem continuous_on (m : MQ) : Continuous fun p : ℝ × ℝ => m.on p.1 p.2 := by
  unfold MQ.on MQ.vdsat
  fun_prop

/-- C43: the current of a conducting device is a continuous function of all three voltages, for every
`LAMBDA`: in particular there is no jump between ohmic region and saturation. -/
theorem C43_continuous (m : MQ) :
    ContinuousOn (fun p : ℝ × ℝ × ℝ => m.ids p.1 p.2.1 p.2.2) {p | m.vt p.2.2 ≤ p.2.1} := by
  have h : Continuous fun p : ℝ × ℝ × ℝ =>
      m.NPMOS * m.M / m.N * m.on (p.2.1 - m.vt p.2.2) p.1 := by
    have h1 : Continuous fun p : ℝ × ℝ × ℝ => (p.2.1 - m.vt p.2.2, p.1) := by
      have := continuous_vt m
      fun_prop
    exact ((continuous_on m).comp h1).const_mul _
  apply h.continuousOn.congr
  intro p hp
  simp only [MQ.ids]
  rw [ids0_on m _ _ _ hp]

/-- C43: the output conductance of a conducting device is a continuous function of all three voltages. -/
theorem C43_gmd_continuous (m : MQ) :
    ContinuousOn (fun p : ℝ × ℝ × ℝ => m.gmd p.1 p.2.1 p.2.2) {p | m.vt p.2.2 ≤ p.2.1} := by
  have h : Continuous fun p : ℝ × ℝ × ℝ =>
      (1 + m.skp) * (m.KP * m.W / m.L * (p.2.1 - m.vt p.2.2 - p.1 +
        max (p.1 - m.vdsat (p.2.1 - m.vt p.2.2)) 0)) * m.M / m.N := by
    have := continuous_vt m
    unfold MQ.vdsat
    fun_prop
  apply h.continuousOn.congr
  intro p hp
  obtain ⟨vds, vgs, vbs⟩ := p
  simp only [Set.mem_setOf_eq] at hp
  simp only [MQ.gmd, MQ.vdsat]
  rw [if_neg (not_lt.2 hp)]
  have e : (m.vt vbs - vgs) ^ 2 = (vgs - m.vt vbs) ^ 2 := by ring
  rw [e]
  by_cases hx : vds < vgs - m.vt vbs - 0.5 * m.LAMBDA * (vgs - m.vt vbs) ^ 2
  · rw [if_pos hx, max_eq_right (by linarith)]
    ring
  · rw [if_neg hx, max_eq_left (by linarith)]
    ring

/-- C43: at the threshold there is a jump. At `vgs = VT` the current is 0 in saturation, just below
it is close to `iea·(1 + vds/VT)/100`. -/
theorem C43_threshold_refuted (m : MQ) (vds vbs : ℝ) (hv : 0 ≤ vds) (ht : 0 < m.vt vbs)
    (hi : 0 < m.iea) (hm : m.NPMOS * m.M / m.N ≠ 0) :
    m.ids vds (m.vt vbs) vbs = 0 ∧ ¬ ContinuousAt (fun vgs => m.ids vds vgs vbs) (m.vt vbs) := by
  have h0 : m.ids vds (m.vt vbs) vbs = 0 := by
    unfold MQ.ids
    rw [ids0_on m _ _ _ (le_refl _)]
    simp only [MQ.on, MQ.vdsat, sub_self]
    rw [max_eq_left (by norm_num; exact hv)]
    norm_num
  refine ⟨h0, fun h => ?_⟩
  have h1 : Filter.Tendsto (fun vgs => m.ids vds vgs vbs) (nhdsWithin (m.vt vbs) (Set.Iio (m.vt vbs)))
      (nhds (m.ids vds (m.vt vbs) vbs)) := h.tendsto.mono_left nhdsWithin_le_nhds
  have hc : Continuous fun vgs : ℝ =>
      m.NPMOS * m.M / m.N * (m.iea * (vgs / m.vt vbs + vds / m.vt vbs) / 100) := by fun_prop
  have h2 : Filter.Tendsto (fun vgs => m.ids vds vgs vbs) (nhdsWithin (m.vt vbs) (Set.Iio (m.vt vbs)))
      (nhds (m.NPMOS * m.M / m.N * (m.iea * (m.vt vbs / m.vt vbs + vds / m.vt vbs) / 100))) := by
    have h3 := (hc.continuousAt (x := m.vt vbs)).tendsto.mono_left
      (nhdsWithin_le_nhds (s := Set.Iio (m.vt vbs)))
    apply h3.congr'
    filter_upwards [self_mem_nhdsWithin] with x hx
    unfold MQ.ids
    rw [ids0_off m _ _ _ (Set.mem_Iio.1 hx)]
  have := tendsto_nhds_unique h1 h2
  rw [h0] at this
  have hpos : 0 < m.iea * (m.vt vbs / m.vt vbs + vds / m.vt vbs) / 100 := by
    have : 0 ≤ vds / m.vt vbs := div_nonneg hv ht.le
    rw [div_self ht.ne']
    positivity
  exact mul_ne_zero hm hpos.ne' this.symm

/-- C43: exchanging drain and source reverses the current exactly, whenever they differ. Missing:
equal voltages (below). -/
theorem C43_symmetric_partial (m : MQ) (vds vgs vbs : ℝ) (hn : m.NPMOS ≠ 0) (h : vds ≠ 0) :
    m.drain (-vds) (vgs - vds) (vbs - vds) = -m.drain vds vgs vbs := by
  simp only [MQ.drain, MQ.voltages]
  have hd : vds * m.NPMOS ≠ 0 := mul_ne_zero h hn
  rcases lt_or_gt_of_ne hd with h1 | h1
  · have h2 : ¬ (-vds * m.NPMOS < 0) := by linarith
    rw [if_pos h1, if_neg h2]
    have e1 : -vds * m.NPMOS = -(vds * m.NPMOS) := by ring
    have e2 : (vgs - vds) * m.NPMOS = vgs * m.NPMOS - vds * m.NPMOS := by ring
    have e3 : (vbs - vds) * m.NPMOS = vbs * m.NPMOS - vds * m.NPMOS := by ring
    simp only [e1, e2, e3]
    ring
  · have h2 : -vds * m.NPMOS < 0 := by linarith
    rw [if_neg (not_lt.2 h1.le), if_pos h2]
    have e1 : -(-vds * m.NPMOS) = vds * m.NPMOS := by ring
    have e2 : (vgs - vds) * m.NPMOS - -vds * m.NPMOS = vgs * m.NPMOS := by ring
    have e3 : (vbs - vds) * m.NPMOS - -vds * m.NPMOS = vbs * m.NPMOS := by ring
    simp only [e1, e2, e3]
    ring

/-- C43: at equal drain and source voltages a conducting device carries no current as long as
`LAMBDA` times the overdrive is at most 2. -/
theorem C43_zero_partial (m : MQ) (vgs vbs : ℝ) (h : m.vt (vbs * m.NPMOS) ≤ vgs * m.NPMOS)
    (hl : m.LAMBDA * (vgs * m.NPMOS - m.vt (vbs * m.NPMOS)) ≤ 2) : m.drain 0 vgs vbs = 0 := by
  simp only [MQ.drain, MQ.voltages, zero_mul, lt_self_iff_false, if_false, MQ.ids]
  rw [ids0_on m _ _ _ h]
  simp only [MQ.on, MQ.vdsat]
  set o := vgs * m.NPMOS - m.vt (vbs * m.NPMOS) with ho
  have ho0 : 0 ≤ o := sub_nonneg.2 h
  have : 0 - (o - 0.5 * m.LAMBDA * o ^ 2) ≤ 0 := by nlinarith
  rw [max_eq_right this]
  norm_num

/-- C43: a device which is off carries a current at equal drain and source voltages, and exchanging
them does not reverse it. -/
theorem C43_symmetric_refuted (m : MQ) (vgs vbs : ℝ) (h : vgs * m.NPMOS < m.vt (vbs * m.NPMOS))
    (h0 : vgs * m.NPMOS ≠ 0) (ht : m.vt (vbs * m.NPMOS) ≠ 0) (hi : m.iea ≠ 0)
    (hm : m.NPMOS * m.M / m.N ≠ 0) :
    m.drain (-0) (vgs - 0) (vbs - 0) ≠ -m.drain 0 vgs vbs := by
  have e : m.drain 0 vgs vbs ≠ 0 := by
    simp only [MQ.drain, MQ.voltages, zero_mul, lt_self_iff_false, if_false, MQ.ids]
    rw [ids0_off m _ _ _ h]
    rw [zero_div, add_zero, one_mul]
    exact mul_ne_zero hm (div_ne_zero (mul_ne_zero hi (div_ne_zero h0 ht)) (by norm_num))
  rw [neg_zero, sub_zero, sub_zero]
  intro h2
  apply e
  linarith

/-- C43: a conducting device with `LAMBDA` times overdrive above 2 carries a current at equal drain
and source voltages; so the current jumps there when drain and source are exchanged. -/
theorem C43_lambda_refuted (m : MQ) (vgs vbs : ℝ) (h : m.vt (vbs * m.NPMOS) < vgs * m.NPMOS)
    (hl : 2 < m.LAMBDA * (vgs * m.NPMOS - m.vt (vbs * m.NPMOS))) (hb : m.beta ≠ 0)
    (hm : m.NPMOS * m.M / m.N ≠ 0) : m.drain 0 vgs vbs ≠ 0 := by
  simp only [MQ.drain, MQ.voltages, zero_mul, lt_self_iff_false, if_false, MQ.ids]
  rw [ids0_on m _ _ _ h.le]
  simp only [MQ.on, MQ.vdsat]
  set o := vgs * m.NPMOS - m.vt (vbs * m.NPMOS) with ho
  have ho0 : 0 < o := sub_pos.2 h
  have : 0 < 0 - (o - 0.5 * m.LAMBDA * o ^ 2) := by nlinarith
  rw [max_eq_left this.le, one_mul]
  refine mul_ne_zero hm (mul_ne_zero hb ?_)
  have e : o * 0 - 0.5 * 0 ^ 2 + 0.5 * (0 - (o - 0.5 * m.LAMBDA * o ^ 2)) ^ 2 =
      0.5 * (0 - (o - 0.5 * m.LAMBDA * o ^ 2)) ^ 2 := by ring
  rw [e]
  positivity

/-- C43: n- and p-type devices with the same internal parameters are mirror images. -/
theorem C43_mirror (m : MQ) (h : m.NPMOS = 1) (vds vgs vbs : ℝ) :
    ({ m with NPMOS := -1 } : MQ).drain (-vds) (-vgs) (-vbs) = -m.drain vds vgs vbs := by
  have hids : ∀ a b c, ({ m with NPMOS := -1 } : MQ).ids a b c = -m.ids a b c := by
    intro a b c
    have e : ({ m with NPMOS := -1 } : MQ).ids0 a b c = m.ids0 a b c := rfl
    simp only [MQ.ids]
    rw [e, h]
    ring
  have hv : ({ m with NPMOS := -1 } : MQ).voltages (-vds) (-vgs) (-vbs) = m.voltages vds vgs vbs := by
    simp only [MQ.voltages, h]
    have e1 : -vds * -1 = vds * 1 := by ring
    have e2 : -vgs * -1 = vgs * 1 := by ring
    have e3 : -vbs * -1 = vbs * 1 := by ring
    rw [e1, e2, e3]
  simp only [MQ.drain]
  rw [hv, hids]
  ring

/-! ### Derivatives -/

theorem hasDerivAt_max_sq (x : ℝ) : HasDerivAt (fun x : ℝ => (max x 0) ^ 2) (2 * max x 0) x := by
  rcases lt_trichotomy x 0 with h | h | h
  · have e : (fun x : ℝ => (max x 0) ^ 2) =ᶠ[nhds x] fun _ => 0 := by
      filter_upwards [Iio_mem_nhds h] with y hy
      rw [max_eq_right (Set.mem_Iio.1 hy).le]
      norm_num
    rw [max_eq_right h.le, mul_zero]
    exact (hasDerivAt_const x 0).congr_of_eventuallyEq e
  · subst h
    have h1 : HasDerivWithinAt (fun x : ℝ => (max x 0) ^ 2) (2 * max 0 0) (Set.Iic 0) 0 := by
      have := (hasDerivAt_const (0 : ℝ) (0 : ℝ)).hasDerivWithinAt (s := Set.Iic (0 : ℝ))
      rw [max_self, mul_zero]
      apply this.congr
      · intro y hy
        rw [max_eq_right (Set.mem_Iic.1 hy)]
        norm_num
      · norm_num
    have h2 : HasDerivWithinAt (fun x : ℝ => (max x 0) ^ 2) (2 * max 0 0) (Set.Ici 0) 0 := by
      have := (hasDerivAt_pow 2 (0 : ℝ)).hasDerivWithinAt (s := Set.Ici (0 : ℝ))
      have e : (((2 : ℕ) : ℝ)) * 0 ^ (2 - 1) = 2 * max 0 0 := by norm_num
      rw [e] at this
      apply this.congr
      · intro y hy
        rw [max_eq_left (Set.mem_Ici.1 hy)]
      · norm_num
    have h3 := h1.union h2
    rw [Set.Iic_union_Ici] at h3
    exact hasDerivWithinAt_univ.1 h3
  · have e : (fun x : ℝ => (max x 0) ^ 2) =ᶠ[nhds x] fun x => x ^ 2 := by
      filter_upwards [Ioi_mem_nhds h] with y hy
      rw [max_eq_left (Set.mem_Ioi.1 hy).le]
    rw [max_eq_left h.le]
    have := hasDerivAt_pow 2 x
    have e2 : (((2 : ℕ) : ℝ)) * x ^ (2 - 1) = 2 * x := by norm_num
    rw [e2] at this
    exact this.congr_of_eventuallyEq e

/-- The derivative of the current by the drain voltage. -/
theorem hasDerivAt_on_x (m : MQ) (o x : ℝ) :
    HasDerivAt (fun x => m.on o x) (m.beta * (o - x + max (x - m.vdsat o) 0)) x := by
  have h1 : HasDerivAt (fun x : ℝ => o * x) (o * 1) x := (hasDerivAt_id x).const_mul o
  have h2 : HasDerivAt (fun x : ℝ => 0.5 * x ^ 2) (0.5 * (((2 : ℕ) : ℝ) * x ^ (2 - 1))) x :=
    (hasDerivAt_pow 2 x).const_mul 0.5
  have h3 : HasDerivAt (fun x : ℝ => x - m.vdsat o) 1 x := (hasDerivAt_id x).sub_const _
  have h4 := ((hasDerivAt_max_sq (x - m.vdsat o)).comp x h3).const_mul 0.5
  have h5 := ((h1.sub h2).add h4).const_mul m.beta
  have e : m.beta * (o * 1 - 0.5 * (((2 : ℕ) : ℝ) * x ^ (2 - 1)) + 0.5 * (2 * max (x - m.vdsat o) 0 * 1)) =
      m.beta * (o - x + max (x - m.vdsat o) 0) := by
    norm_num; left; ring
  rw [e] at h5
  exact h5

/-- The derivative of the current by the overdrive. -/
theorem hasDerivAt_on_o (m : MQ) (o x : ℝ) :
    HasDerivAt (fun o => m.on o x) (m.beta * (x + max (x - m.vdsat o) 0 * (m.LAMBDA * o - 1))) o := by
  have h1 : HasDerivAt (fun o : ℝ => o * x) (1 * x) o := (hasDerivAt_id o).mul_const x
  have h3 : HasDerivAt (fun o : ℝ => x - m.vdsat o) (m.LAMBDA * o - 1) o := by
    have g := (((hasDerivAt_pow 2 o).const_mul (0.5 * m.LAMBDA)).const_sub o)
    have g1 : HasDerivAt (fun o : ℝ => o - 0.5 * m.LAMBDA * o ^ 2)
        (1 - 0.5 * m.LAMBDA * (((2 : ℕ) : ℝ) * o ^ (2 - 1))) o :=
      (hasDerivAt_id o).sub ((hasDerivAt_pow 2 o).const_mul (0.5 * m.LAMBDA))
    have g2 := g1.const_sub x
    have e : -(1 - 0.5 * m.LAMBDA * (((2 : ℕ) : ℝ) * o ^ (2 - 1))) = m.LAMBDA * o - 1 := by
      norm_num; ring
    rw [e] at g2
    exact g2
  have h4 := ((hasDerivAt_max_sq (x - m.vdsat o)).comp o h3).const_mul 0.5
  have h5 := ((h1.sub_const (0.5 * x ^ 2)).add h4).const_mul m.beta
  have e : m.beta * (1 * x + 0.5 * (2 * max (x - m.vdsat o) 0 * (m.LAMBDA * o - 1))) =
      m.beta * (x + max (x - m.vdsat o) 0 * (m.LAMBDA * o - 1)) := by ring
  rw [e] at h5
  exact h5

/-- The current at the drain when no exchange is needed. -/
theorem drain_fwd (m : MQ) (vds vgs vbs : ℝ)
    (h : 0 ≤ vds * m.NPMOS) :
    m.drain vds vgs vbs =
      m.NPMOS * m.M / m.N * m.ids0 (vds * m.NPMOS) (vgs * m.NPMOS) (vbs * m.NPMOS) := by
  simp only [MQ.drain, MQ.voltages]
  rw [if_neg (not_lt.2 h), one_mul]
  rfl

theorem np_sq (m : MQ) (hn : m.NPMOS = 1 ∨ m.NPMOS = -1) : m.NPMOS * m.NPMOS = 1 := by
  rcases hn with h | h <;> rw [h] <;> norm_num

/-- C44: `gmd` is the derivative of the drain current by the drain voltage, in all regions of a
conducting device and at their boundary, for n- and p-type. -/
theorem C44_gmd (m : MQ) (hn : m.NPMOS = 1 ∨ m.NPMOS = -1) (vds vgs vbs : ℝ)
    (hv : 0 < vds * m.NPMOS) (hon : m.vt (vbs * m.NPMOS) ≤ vgs * m.NPMOS) :
    HasDerivAt (fun x => m.drain x vgs vbs)
      (m.gmd (vds * m.NPMOS) (vgs * m.NPMOS) (vbs * m.NPMOS)) vds := by
  set o := vgs * m.NPMOS - m.vt (vbs * m.NPMOS) with ho
  have hev : (fun x => m.drain x vgs vbs) =ᶠ[nhds vds]
      fun x => m.NPMOS * m.M / m.N * m.on o (x * m.NPMOS) := by
    have hc : Continuous fun x : ℝ => x * m.NPMOS := by fun_prop
    filter_upwards [(isOpen_Ioi.preimage hc).mem_nhds (show vds ∈ _ from hv)] with x hx
    rw [drain_fwd m _ _ _ (le_of_lt hx), ids0_on m _ _ _ hon]
  have h1 : HasDerivAt (fun x : ℝ => x * m.NPMOS) (1 * m.NPMOS) vds :=
    (hasDerivAt_id vds).mul_const _
  have h2 := ((hasDerivAt_on_x m o (vds * m.NPMOS)).comp vds h1).const_mul (m.NPMOS * m.M / m.N)
  have h3 := h2.congr_of_eventuallyEq hev
  have e : m.NPMOS * m.M / m.N * (m.beta * (o - vds * m.NPMOS + max (vds * m.NPMOS - m.vdsat o) 0) *
      (1 * m.NPMOS)) = m.gmd (vds * m.NPMOS) (vgs * m.NPMOS) (vbs * m.NPMOS) := by
    have e0 : m.NPMOS * m.M / m.N * (m.beta * (o - vds * m.NPMOS + max (vds * m.NPMOS - m.vdsat o) 0) *
      (1 * m.NPMOS)) = m.NPMOS * m.NPMOS * (m.M / m.N *
        (m.beta * (o - vds * m.NPMOS + max (vds * m.NPMOS - m.vdsat o) 0))) := by ring
    rw [e0, np_sq m hn, one_mul]
    simp only [MQ.gmd, MQ.vdsat, MQ.beta]
    rw [if_neg (not_lt.2 hon)]
    have e : (m.vt (vbs * m.NPMOS) - vgs * m.NPMOS) ^ 2 = o ^ 2 := by rw [ho]; ring
    rw [e, ← ho]
    by_cases hx : vds * m.NPMOS < o - 0.5 * m.LAMBDA * o ^ 2
    · rw [if_pos hx, max_eq_right (by linarith), ho]
      ring
    · rw [if_neg hx, max_eq_left (by linarith)]
      ring
  rw [e] at h3
  exact h3

/-- C44: the same for a device which is off, without Monte Carlo deviation. -/
theorem C44_gmd_off (m : MQ) (hn : m.NPMOS = 1 ∨ m.NPMOS = -1) (vds vgs vbs : ℝ)
    (hv : 0 < vds * m.NPMOS) (hoff : vgs * m.NPMOS < m.vt (vbs * m.NPMOS)) (hs : m.skp = 0) :
    HasDerivAt (fun x => m.drain x vgs vbs)
      (m.gmd (vds * m.NPMOS) (vgs * m.NPMOS) (vbs * m.NPMOS)) vds := by
  set VT := m.vt (vbs * m.NPMOS) with hVT
  have hev : (fun x => m.drain x vgs vbs) =ᶠ[nhds vds]
      fun x => m.NPMOS * m.M / m.N * (m.iea * (vgs * m.NPMOS / VT + x * m.NPMOS / VT) / 100) := by
    have hc : Continuous fun x : ℝ => x * m.NPMOS := by fun_prop
    filter_upwards [(isOpen_Ioi.preimage hc).mem_nhds (show vds ∈ _ from hv)] with x hx
    rw [drain_fwd m _ _ _ (le_of_lt hx), ids0_off m _ _ _ hoff]
  have h1 : HasDerivAt (fun x : ℝ => x * m.NPMOS) (1 * m.NPMOS) vds :=
    (hasDerivAt_id vds).mul_const _
  have h2 := ((((h1.div_const VT).const_add (vgs * m.NPMOS / VT)).const_mul m.iea).div_const
    100).const_mul (m.NPMOS * m.M / m.N)
  have h3 := h2.congr_of_eventuallyEq hev
  have e : m.NPMOS * m.M / m.N * (m.iea * (1 * m.NPMOS / VT) / 100) =
      m.gmd (vds * m.NPMOS) (vgs * m.NPMOS) (vbs * m.NPMOS) := by
    have e0 : m.NPMOS * m.M / m.N * (m.iea * (1 * m.NPMOS / VT) / 100) =
      m.NPMOS * m.NPMOS * (m.M / m.N * (m.iea / VT / 100)) := by ring
    rw [e0, np_sq m hn]
    simp only [MQ.gmd]
    rw [if_pos hoff, hs]
    ring
  rw [e] at h3
  exact h3

/-- The derivative of the drain current of a conducting device by the gate voltage. -/
noncomputable def MQ.trueGm (m : MQ) (vds vgs vbs : ℝ) : ℝ :=
  let o := vgs - m.vt vbs
  m.M / m.N * (m.beta * (vds + max (vds - m.vdsat o) 0 * (m.LAMBDA * o - 1)))

theorem hasDerivAt_trueGm (m : MQ) (hn : m.NPMOS = 1 ∨ m.NPMOS = -1) (vds vgs vbs : ℝ)
    (hv : 0 ≤ vds * m.NPMOS) (hon : m.vt (vbs * m.NPMOS) < vgs * m.NPMOS) :
    HasDerivAt (fun x => m.drain vds x vbs)
      (m.trueGm (vds * m.NPMOS) (vgs * m.NPMOS) (vbs * m.NPMOS)) vgs := by
  have hev : (fun x => m.drain vds x vbs) =ᶠ[nhds vgs]
      fun x => m.NPMOS * m.M / m.N * m.on (x * m.NPMOS - m.vt (vbs * m.NPMOS)) (vds * m.NPMOS) := by
    have hc : Continuous fun x : ℝ => x * m.NPMOS := by fun_prop
    filter_upwards [(isOpen_Ioi.preimage hc).mem_nhds (show vgs ∈ _ from hon)] with x hx
    rw [drain_fwd m _ _ _ hv, ids0_on m _ _ _ (le_of_lt hx)]
  have h1 : HasDerivAt (fun x : ℝ => x * m.NPMOS - m.vt (vbs * m.NPMOS)) (1 * m.NPMOS) vgs :=
    ((hasDerivAt_id vgs).mul_const _).sub_const _
  have h2 := ((hasDerivAt_on_o m (vgs * m.NPMOS - m.vt (vbs * m.NPMOS)) (vds * m.NPMOS)).comp vgs
    h1).const_mul (m.NPMOS * m.M / m.N)
  have h3 := h2.congr_of_eventuallyEq hev
  simp only [MQ.trueGm]
  set o := vgs * m.NPMOS - m.vt (vbs * m.NPMOS)
  set P := max (vds * m.NPMOS - m.vdsat o) 0
  have e : m.NPMOS * m.M / m.N * (m.beta * (vds * m.NPMOS + P * (m.LAMBDA * o - 1)) *
      (1 * m.NPMOS)) = m.NPMOS * m.NPMOS * (m.M / m.N * (m.beta * (vds * m.NPMOS +
      P * (m.LAMBDA * o - 1)))) := by ring
  rw [e, np_sq m hn, one_mul] at h3
  exact h3

/-- C44: `gm` is the derivative of the drain current by the gate voltage in the ohmic region, and
everywhere on when `LAMBDA` is 0 and there is no Monte Carlo deviation of the threshold. Missing:
saturation with `LAMBDA ≠ 0` (below). -/
theorem C44_gm_partial (m : MQ) (hn : m.NPMOS = 1 ∨ m.NPMOS = -1) (vds vgs vbs : ℝ)
    (hv : 0 ≤ vds * m.NPMOS) (hon : m.vt (vbs * m.NPMOS) < vgs * m.NPMOS) (hl : 0 ≤ m.LAMBDA)
    (hr : vds * m.NPMOS < m.vdsat (vgs * m.NPMOS - m.vt (vbs * m.NPMOS)) ∨
      (m.LAMBDA = 0 ∧ m.svt = 0)) :
    HasDerivAt (fun x => m.drain vds x vbs)
      (m.gm (vds * m.NPMOS) (vgs * m.NPMOS) (vbs * m.NPMOS)) vgs := by
  have h := hasDerivAt_trueGm m hn vds vgs vbs hv hon
  have e : m.trueGm (vds * m.NPMOS) (vgs * m.NPMOS) (vbs * m.NPMOS) =
      m.gm (vds * m.NPMOS) (vgs * m.NPMOS) (vbs * m.NPMOS) := by
    simp only [MQ.trueGm, MQ.gm, MQ.beta, MQ.vdsat] at *
    rw [if_neg (not_lt.2 hon.le)]
    rcases hr with hr | ⟨hr, hs⟩
    · set o := vgs * m.NPMOS - m.vt (vbs * m.NPMOS)
      have : 0 ≤ 0.5 * m.LAMBDA * o ^ 2 := by positivity
      rw [if_pos (by linarith), max_eq_right (by linarith)]
      ring
    · by_cases hx : vds * m.NPMOS < vgs * m.NPMOS - m.vt (vbs * m.NPMOS)
      · rw [if_pos hx, max_eq_right (by rw [hr]; linarith)]
        ring
      · rw [if_neg hx, max_eq_left (by rw [hr]; linarith)]
        rw [hr]
        have hvt : m.vt (vbs * m.NPMOS) =
            m.VTO + m.GAMMA * (√(m.vsq1 (vbs * m.NPMOS)) - √m.vsq2) := by
          simp only [MQ.vt, hs, add_zero]
        rw [hvt]
        ring
  rw [e] at h
  exact h

/-- C44: in saturation above the overdrive, `gm` is always too small when `LAMBDA ≠ 0`: it lacks the
derivative of the correction term. -/
theorem C44_gm_refuted (m : MQ) (hn : m.NPMOS = 1 ∨ m.NPMOS = -1) (vds vgs vbs : ℝ)
    (hon : m.vt (vbs * m.NPMOS) < vgs * m.NPMOS) (hl : 0 < m.LAMBDA) (hs : m.svt = 0)
    (hb : 0 < m.beta) (hm : 0 < m.M / m.N)
    (hr : vgs * m.NPMOS - m.vt (vbs * m.NPMOS) ≤ vds * m.NPMOS) :
    ∃ d, HasDerivAt (fun x => m.drain vds x vbs) d vgs ∧
      m.gm (vds * m.NPMOS) (vgs * m.NPMOS) (vbs * m.NPMOS) < d := by
  refine ⟨_, hasDerivAt_trueGm m hn vds vgs vbs (by linarith) hon, ?_⟩
  have hvt : m.vt (vbs * m.NPMOS) = m.VTO + m.GAMMA * (√(m.vsq1 (vbs * m.NPMOS)) - √m.vsq2) := by
    simp only [MQ.vt, hs, add_zero]
  have ho : 0 < vgs * m.NPMOS - m.vt (vbs * m.NPMOS) := sub_pos.2 hon
  have key : m.trueGm (vds * m.NPMOS) (vgs * m.NPMOS) (vbs * m.NPMOS) -
      m.gm (vds * m.NPMOS) (vgs * m.NPMOS) (vbs * m.NPMOS) =
      m.M / m.N * m.beta * (0.5 * m.LAMBDA ^ 2 * (vgs * m.NPMOS - m.vt (vbs * m.NPMOS)) ^ 3) := by
    simp only [MQ.trueGm, MQ.gm, MQ.vdsat]
    rw [if_neg (not_lt.2 hon.le), if_neg (not_lt.2 hr)]
    have : 0 ≤ 0.5 * m.LAMBDA * (vgs * m.NPMOS - m.vt (vbs * m.NPMOS)) ^ 2 := by positivity
    rw [max_eq_left (by linarith)]
    rw [hvt]
    simp only [MQ.beta]
    ring
  have : 0 < m.M / m.N * m.beta *
      (0.5 * m.LAMBDA ^ 2 * (vgs * m.NPMOS - m.vt (vbs * m.NPMOS)) ^ 3) := by positivity
  linarith

theorem hasDerivAt_vt (m : MQ) (vbs : ℝ) (h : 0 < -vbs + 2 * m.PHI) :
    HasDerivAt m.vt (-(m.GAMMA / (2 * √(m.vsq1 vbs)))) vbs := by
  have hev : m.vt =ᶠ[nhds vbs] fun b => m.VTO + m.svt + m.GAMMA * (√(-b + 2 * m.PHI) - √m.vsq2) := by
    have hc : Continuous fun b : ℝ => -b + 2 * m.PHI := by fun_prop
    filter_upwards [(isOpen_Ioi.preimage hc).mem_nhds (show vbs ∈ _ from h)] with b hb
    simp only [MQ.vt, MQ.vsq1]
    rw [max_eq_left (le_of_lt hb)]
  have h1 : HasDerivAt (fun b : ℝ => -b + 2 * m.PHI) (-1) vbs := (hasDerivAt_id vbs).neg.add_const _
  have h2 := (((h1.sqrt h.ne').sub_const (√m.vsq2)).const_mul m.GAMMA).const_add (m.VTO + m.svt)
  have h3 := h2.congr_of_eventuallyEq hev
  have e : m.GAMMA * (-1 / (2 * √(-vbs + 2 * m.PHI))) = -(m.GAMMA / (2 * √(m.vsq1 vbs))) := by
    simp only [MQ.vsq1]
    rw [max_eq_left h.le]
    ring
  rw [e] at h3
  exact h3

/-- The derivative of the drain current of a conducting device by the bulk voltage is the one by the gate
voltage times `GAMMA/(2·sqrt(2·PHI - vbs))`. -/
theorem hasDerivAt_trueGmb (m : MQ) (hn : m.NPMOS = 1 ∨ m.NPMOS = -1) (vds vgs vbs : ℝ)
    (hv : 0 ≤ vds * m.NPMOS) (hon : m.vt (vbs * m.NPMOS) < vgs * m.NPMOS)
    (hp : 0 < -(vbs * m.NPMOS) + 2 * m.PHI) :
    HasDerivAt (fun x => m.drain vds vgs x)
      (m.trueGm (vds * m.NPMOS) (vgs * m.NPMOS) (vbs * m.NPMOS) *
        (m.GAMMA / (2 * √(m.vsq1 (vbs * m.NPMOS))))) vbs := by
  have hev : (fun x => m.drain vds vgs x) =ᶠ[nhds vbs]
      fun x => m.NPMOS * m.M / m.N * m.on (vgs * m.NPMOS - m.vt (x * m.NPMOS)) (vds * m.NPMOS) := by
    have hc : Continuous fun x : ℝ => m.vt (x * m.NPMOS) :=
      (continuous_vt m).comp (by fun_prop)
    filter_upwards [(isOpen_Iio.preimage hc).mem_nhds (show vbs ∈ _ from hon)] with x hx
    rw [drain_fwd m _ _ _ hv, ids0_on m _ _ _ (le_of_lt hx)]
  have h0 : HasDerivAt (fun x : ℝ => x * m.NPMOS) (1 * m.NPMOS) vbs := (hasDerivAt_id vbs).mul_const _
  have h1 := ((hasDerivAt_vt m (vbs * m.NPMOS) hp).comp vbs h0).const_sub (vgs * m.NPMOS)
  have h2 := ((hasDerivAt_on_o m (vgs * m.NPMOS - m.vt (vbs * m.NPMOS)) (vds * m.NPMOS)).comp vbs
    h1).const_mul (m.NPMOS * m.M / m.N)
  have h3 := h2.congr_of_eventuallyEq hev
  simp only [MQ.trueGm]
  set o := vgs * m.NPMOS - m.vt (vbs * m.NPMOS)
  set P := max (vds * m.NPMOS - m.vdsat o) 0
  set q := m.GAMMA / (2 * √(m.vsq1 (vbs * m.NPMOS)))
  have e : m.NPMOS * m.M / m.N * (m.beta * (vds * m.NPMOS + P * (m.LAMBDA * o - 1)) *
      -(-q * (1 * m.NPMOS))) = m.NPMOS * m.NPMOS * (m.M / m.N * (m.beta * (vds * m.NPMOS +
      P * (m.LAMBDA * o - 1))) * q) := by ring
  rw [e, np_sq m hn, one_mul] at h3
  exact h3

/-- C44: `gmb` is the derivative of the drain current by the bulk voltage in the ohmic region of an
n-type device. Missing: saturation, p-type, off (below). -/
theorem C44_gmb_partial (m : MQ) (hn : m.NPMOS = 1) (vds vgs vbs : ℝ)
    (hv : 0 ≤ vds) (hon : m.vt vbs < vgs) (hl : 0 ≤ m.LAMBDA) (hp : 0 < -vbs + 2 * m.PHI)
    (hr : vds < m.vdsat (vgs - m.vt vbs)) :
    HasDerivAt (fun x => m.drain vds vgs x) (m.gmb vds vgs vbs) vbs := by
  have h := hasDerivAt_trueGmb m (Or.inl hn) vds vgs vbs (by rw [hn, mul_one]; exact hv)
    (by rw [hn, mul_one, mul_one]; exact hon) (by rw [hn, mul_one]; exact hp)
  simp only [hn, mul_one] at h
  have e : m.trueGm vds vgs vbs * (m.GAMMA / (2 * √(m.vsq1 vbs))) = m.gmb vds vgs vbs := by
    simp only [MQ.trueGm, MQ.gmb, MQ.beta, MQ.vdsat] at *
    rw [if_neg (not_lt.2 hon.le)]
    set o := vgs - m.vt vbs
    have : 0 ≤ 0.5 * m.LAMBDA * o ^ 2 := by positivity
    have hq : m.vsq1 vbs > 0 := by unfold MQ.vsq1; exact lt_max_of_lt_left hp
    rw [if_pos (by linarith), max_eq_right (by linarith), if_pos hq, hn]
    ring
  rw [e] at h
  exact h

/-- C44: for a conducting p-type device in the ohmic region `gmb` has the wrong sign. -/
theorem C44_gmb_p_refuted (m : MQ) (hn : m.NPMOS = -1) (vds vgs vbs : ℝ)
    (hv : 0 < -vds) (hon : m.vt (-vbs) < -vgs) (hl : 0 ≤ m.LAMBDA) (hp : 0 < vbs + 2 * m.PHI)
    (hr : -vds < m.vdsat (-vgs - m.vt (-vbs))) (hb : 0 < m.beta) (hm : 0 < m.M / m.N)
    (hg : 0 < m.GAMMA) :
    ∃ d, HasDerivAt (fun x => m.drain vds vgs x) d vbs ∧ 0 < d ∧ m.gmb (-vds) (-vgs) (-vbs) = -d := by
  have h := hasDerivAt_trueGmb m (Or.inr hn) vds vgs vbs (by rw [hn]; linarith)
    (by simp only [hn, mul_neg_one]; exact hon) (by rw [hn]; linarith)
  simp only [hn, mul_neg_one] at h
  have hq : m.vsq1 (-vbs) > 0 := by unfold MQ.vsq1; apply lt_max_of_lt_left; linarith
  have hs : 0 < √(m.vsq1 (-vbs)) := sqrt_pos.2 hq
  simp only [MQ.vdsat] at hr
  set o := -vgs - m.vt (-vbs) with ho
  have h5 : 0 ≤ 0.5 * m.LAMBDA * o ^ 2 := by positivity
  have e : m.trueGm (-vds) (-vgs) (-vbs) = m.M / m.N * (m.beta * -vds) := by
    simp only [MQ.trueGm, MQ.vdsat]
    rw [← ho, max_eq_right (by linarith)]
    ring
  refine ⟨_, h, ?_, ?_⟩
  · rw [e]; positivity
  · rw [e]
    simp only [MQ.gmb, MQ.beta]
    rw [if_neg (not_lt.2 hon.le), if_pos (by linarith), if_pos hq, hn]
    ring

/-- C44: in saturation `gmb` is wrong also for `LAMBDA = 0`. -/
theorem C44_gmb_sat_refuted (m : MQ) (hn : m.NPMOS = 1) (vds vgs vbs : ℝ)
    (hon : m.vt vbs < vgs) (hl : m.LAMBDA = 0) (hs : m.svt = 0) (hp : 0 < -vbs + 2 * m.PHI)
    (hph : 0 < m.PHI) (hr : vgs - m.vt vbs ≤ vds) (hb : 0 < m.beta) (hm : 0 < m.M / m.N)
    (hg : 0 < m.GAMMA) :
    ∃ d, HasDerivAt (fun x => m.drain vds vgs x) d vbs ∧ m.gmb vds vgs vbs < d := by
  have h := hasDerivAt_trueGmb m (Or.inl hn) vds vgs vbs (by rw [hn, mul_one]; linarith)
    (by rw [hn, mul_one, mul_one]; exact hon) (by rw [hn, mul_one]; exact hp)
  simp only [hn, mul_one] at h
  refine ⟨_, h, ?_⟩
  have hq : m.vsq1 vbs > 0 := by unfold MQ.vsq1; exact lt_max_of_lt_left hp
  have hs1 : 0 < √(m.vsq1 vbs) := sqrt_pos.2 hq
  have hs2 : 0 < √m.vsq2 := by
    apply sqrt_pos.2; unfold MQ.vsq2; apply lt_max_of_lt_left; linarith
  have hvt : m.vt vbs = m.VTO + m.GAMMA * (√(m.vsq1 vbs) - √m.vsq2) := by
    simp only [MQ.vt, hs, add_zero]
  have key : m.trueGm vds vgs vbs * (m.GAMMA / (2 * √(m.vsq1 vbs))) - m.gmb vds vgs vbs =
      m.M / m.N * m.beta * m.GAMMA * (m.GAMMA * √m.vsq2) / √(m.vsq1 vbs) := by
    simp only [MQ.trueGm, MQ.gmb, MQ.vdsat]
    rw [if_neg (not_lt.2 hon.le), if_neg (not_lt.2 hr), if_pos hq, max_eq_left (by rw [hl]; linarith)]
    rw [hvt, hl, hn]
    simp only [MQ.beta]
    ring
  have : 0 < m.M / m.N * m.beta * m.GAMMA * (m.GAMMA * √m.vsq2) / √(m.vsq1 vbs) := by positivity
  linarith

/-- C44: a device which is off has `gmb = 0` although the off current depends on the threshold and so on
the bulk voltage. -/
theorem C44_gmb_off_refuted (m : MQ) (hn : m.NPMOS = 1) (vds vgs vbs : ℝ) (hv : 0 ≤ vds)
    (hoff : vgs < m.vt vbs) (ht : 0 < m.vt vbs) (hp : 0 < -vbs + 2 * m.PHI) (hsum : vgs + vds ≠ 0)
    (hi : m.iea ≠ 0) (hm : m.M / m.N ≠ 0) (hg : m.GAMMA ≠ 0) :
    m.gmb vds vgs vbs = 0 ∧ ∃ d, HasDerivAt (fun x => m.drain vds vgs x) d vbs ∧ d ≠ 0 := by
  constructor
  · simp only [MQ.gmb]
    rw [if_pos hoff]
    simp
  · have hev : (fun x => m.drain vds vgs x) =ᶠ[nhds vbs]
        fun x => m.M / m.N * (m.iea / 100) * ((vgs + vds) / m.vt x) := by
      filter_upwards [(isOpen_Ioi.preimage (continuous_vt m)).mem_nhds (show vbs ∈ _ from hoff)] with x hx
      rw [drain_fwd m _ _ _ (by rw [hn, mul_one]; exact hv)]
      rw [hn, mul_one, mul_one, mul_one, ids0_off m _ _ _ hx]
      ring
    have h1 := ((hasDerivAt_const vbs (vgs + vds)).div (hasDerivAt_vt m vbs hp) ht.ne').const_mul
      (m.M / m.N * (m.iea / 100))
    refine ⟨_, h1.congr_of_eventuallyEq hev, ?_⟩
    have hq : m.vsq1 vbs > 0 := by unfold MQ.vsq1; exact lt_max_of_lt_left hp
    have hs1 : 0 < √(m.vsq1 vbs) := sqrt_pos.2 hq
    rw [zero_mul, zero_sub]
    refine mul_ne_zero (mul_ne_zero hm (div_ne_zero hi (by norm_num))) (div_ne_zero ?_ ?_)
    · refine neg_ne_zero.2 (mul_ne_zero hsum (neg_ne_zero.2 (div_ne_zero hg ?_)))
      positivity
    · positivity

/-! ### C45: the stamp -/

/-- C45: the stamp of a device whose drain and source need not be exchanged has rows and columns with
sum zero. -/
theorem C45_mosq_sums_partial (m : MQ) (gmin vds vgs vbs : ℝ) (h : 0 ≤ vds * m.NPMOS) (i : Term) :
    (Term.all.map fun j => m.gstamp gmin vds vgs vbs i j).sum = 0 ∧
    (Term.all.map fun j => m.gstamp gmin vds vgs vbs j i).sum = 0 := by
  have hc : (m.voltages vds vgs vbs).2 = 1 := by
    simp only [MQ.voltages]; rw [if_neg (not_lt.2 h)]
  have h1 : ¬ ((1 : ℝ) = -1) := by norm_num
  simp only [Term.all, MQ.gstamp, hc, if_neg h1, List.map_cons, List.map_nil, List.sum_cons, List.sum_nil]
  constructor <;> cases i <;> simp <;> ring

/-- C45: when drain and source are exchanged all entries but two are zero, because the permutation
matrices are multiplied entry by entry; the sum of the first row is not zero. -/
theorem C45_mosq_swap_refuted (m : MQ) (gmin vds vgs vbs : ℝ) (h : vds * m.NPMOS < 0) :
    m.gstamp gmin vds vgs vbs .d .d = 0 ∧ m.gstamp gmin vds vgs vbs .s .s = 0 ∧
    (Term.all.map fun j => m.gstamp gmin vds vgs vbs .d j).sum = m.gstamp gmin vds vgs vbs .d .s ∧
    (Term.all.map fun j => m.gstamp gmin vds vgs vbs .s j).sum = m.gstamp gmin vds vgs vbs .s .d ∧
    (0 < gmin → m.gstamp gmin vds vgs vbs .s .d ≠ 0) := by
  have hc : (m.voltages vds vgs vbs).2 = -1 := by
    simp only [MQ.voltages]; rw [if_pos h]
  simp only [Term.all, MQ.gstamp, hc, if_true, List.map_cons, List.map_nil, List.sum_cons, List.sum_nil,
    swapT, zero_mul, mul_zero, add_zero, zero_add, one_mul, mul_one, true_and]
  intro hg
  rw [neg_ne_zero]
  split
  · positivity
  · assumption

/-- C45: and the true derivative of the drain current by the drain voltage is not the entry 0 then:
with an exchanged conducting n-type device in the ohmic region it is positive. -/
theorem C45_mosq_swap_derivative_refuted (m : MQ) (gmin vds vgs vbs : ℝ) (hn : m.NPMOS = 1) (h : vds < 0)
    (hl : m.LAMBDA = 0) (hg : m.GAMMA = 0) (hs : m.svt = 0) (hb : 0 < m.beta) (hm : 0 < m.M / m.N)
    (hon : m.VTO < vgs) (hr : -vds < vgs - vds - m.VTO) :
    m.gstamp gmin vds vgs vbs .d .d = 0 ∧
    ∃ d, HasDerivAt (fun x => m.drain x (vgs) (vbs)) d vds ∧ 0 < d := by
  refine ⟨(C45_mosq_swap_refuted m gmin vds vgs vbs (by rw [hn, mul_one]; exact h)).1, ?_⟩
  have hvt : ∀ b, m.vt b = m.VTO := by intro b; simp [MQ.vt, hg, hs]
  have hev : (fun x => m.drain x vgs vbs) =ᶠ[nhds vds]
      fun x => -(m.M / m.N) * m.beta * ((vgs - x - m.VTO) * -x - 0.5 * x ^ 2) := by
    filter_upwards [Iio_mem_nhds h] with x hx
    have hx0 : x < 0 := hx
    simp only [MQ.drain, MQ.voltages, hn, mul_one]
    rw [if_pos hx0]
    simp only [MQ.ids]
    rw [ids0_on m _ _ _ (by rw [hvt]; linarith), hvt, hn]
    simp only [MQ.on, MQ.vdsat, hl]
    rw [max_eq_right (by linarith)]
    ring
  have h1 : HasDerivAt (fun x : ℝ => (vgs - x - m.VTO) * -x - 0.5 * x ^ 2)
      ((-1) * -vds + (vgs - vds - m.VTO) * -1 - 0.5 * (((2 : ℕ) : ℝ) * vds ^ (2 - 1))) vds := by
    have a : HasDerivAt (fun x : ℝ => vgs - x - m.VTO) (-1) vds :=
      ((hasDerivAt_id vds).const_sub vgs).sub_const _
    have b : HasDerivAt (fun x : ℝ => -x) (-1) vds := (hasDerivAt_id vds).neg
    exact (a.mul b).sub ((hasDerivAt_pow 2 vds).const_mul 0.5)
  refine ⟨_, (h1.const_mul (-(m.M / m.N) * m.beta)).congr_of_eventuallyEq hev, ?_⟩
  have e : -(m.M / m.N) * m.beta * ((-1) * -vds + (vgs - vds - m.VTO) * -1 -
      0.5 * (((2 : ℕ) : ℝ) * vds ^ (2 - 1))) = m.M / m.N * m.beta * (vgs - m.VTO - vds) := by
    norm_num; ring
  rw [e]
  have : 0 < vgs - m.VTO - vds := by linarith
  positivity

/-! ### C47 -/

/-- C47: setting the temperature depends on the temperatures set before: the threshold is shifted
again at every call. -/
theorem C47_history_refuted (vth : ℝ) (eg : ℝ → ℝ) (m : MT) (t1 t2 : ℝ) (hc : m.TCV ≠ 0)
    (h1 : t1 ≠ m.TNOM) : ((m.setT vth eg t1).setT vth eg t2).VTO ≠ (m.setT vth eg t2).VTO := by
  simp only [MT.setT]
  intro h
  have e : m.TCV * (t1 - m.TNOM) = 0 := by linarith
  rcases mul_eq_zero.1 e with e | e
  · exact hc e
  · exact h1 (sub_eq_zero.1 e)

/-- C47: setting the present temperature again changes the model, unless it is the nominal one. -/
theorem C47_again_refuted (vth : ℝ) (eg : ℝ → ℝ) (m : MT) (t : ℝ) (hc : m.TCV ≠ 0)
    (h1 : t ≠ m.TNOM) : (m.setT vth eg t).setT vth eg t ≠ m.setT vth eg t := by
  intro h
  exact C47_history_refuted vth eg m t t hc h1 (by rw [h])

/-- C47: the nominal temperature (the default, 300 K, at construction) is neutral, so the first
temperature set after construction gives the right parameters. -/
theorem C47_nominal_partial (vth : ℝ) (eg : ℝ → ℝ) (m : MT) (h : 0 < m.TNOM) (t : ℝ) :
    m.setT vth eg m.TNOM = { m with TEMP := m.TNOM } ∧
    (m.setT vth eg m.TNOM).setT vth eg t = m.setT vth eg t := by
  have e : m.setT vth eg m.TNOM = { m with TEMP := m.TNOM } := by
    unfold MT.setT
    have e1 : m.TNOM / m.TNOM = 1 := div_self h.ne'
    have e2 : m.PHI * m.TNOM / m.TNOM = m.PHI := by field_simp
    have e3 : eg m.TNOM * m.TNOM / m.TNOM = eg m.TNOM := by field_simp
    simp [e1, e2, e3]
  refine ⟨e, ?_⟩
  rw [e]
  rfl

/-! ### Examples -/

theorem vt_zero (m : MQ) : m.vt 0 = m.VTO + m.svt := by
  simp [MQ.vt, MQ.vsq1, MQ.vsq2]

/-- An n-type device with the default parameters. -/
noncomputable def exN : MQ :=
  { NPMOS := 1, VTO := 1 / 2, KP := 1 / 20000, LAMBDA := 1 / 2, GAMMA := 1, PHI := 7 / 10, svt := 0,
    skp := 0, W := 10, L := 1, M := 1, N := 1, iea := 1 / 10 ^ 9 }

noncomputable def exP : MQ := { exN with NPMOS := -1 }

theorem exN_vt : exN.vt 0 = 1 / 2 := by rw [vt_zero]; norm_num [exN]
theorem exP_vt : exP.vt 0 = 1 / 2 := by rw [vt_zero]; norm_num [exP, exN]

/-- Saturation: the conductance is the derivative, `gm` is too small. -/
example : HasDerivAt (fun x => exN.drain x 1 0) (exN.gmd (2 * exN.NPMOS) (1 * exN.NPMOS) (0 * exN.NPMOS)) 2 :=
  C44_gmd exN (Or.inl rfl) 2 1 0 (by norm_num [exN]) (by
    rw [show (0 : ℝ) * exN.NPMOS = 0 by ring, exN_vt]; norm_num [exN])

example : ∃ d, HasDerivAt (fun x => exN.drain 2 x 0) d 1 ∧
    exN.gm (2 * exN.NPMOS) (1 * exN.NPMOS) (0 * exN.NPMOS) < d :=
  C44_gm_refuted exN (Or.inl rfl) 2 1 0
    (by rw [show (0 : ℝ) * exN.NPMOS = 0 by ring, exN_vt]; norm_num [exN]) (by norm_num [exN]) rfl
    (by norm_num [MQ.beta, exN]) (by norm_num [exN])
    (by rw [show (0 : ℝ) * exN.NPMOS = 0 by ring, exN_vt]; norm_num [exN])

/-- Ohmic region. -/
example : HasDerivAt (fun x => exN.drain (1 / 4) x 0)
      (exN.gm (1 / 4 * exN.NPMOS) (1 * exN.NPMOS) (0 * exN.NPMOS)) 1 :=
  C44_gm_partial exN (Or.inl rfl) (1 / 4) 1 0 (by norm_num [exN])
    (by rw [show (0 : ℝ) * exN.NPMOS = 0 by ring, exN_vt]; norm_num [exN]) (by norm_num [exN])
    (Or.inl (by rw [show (0 : ℝ) * exN.NPMOS = 0 by ring, exN_vt]; norm_num [exN, MQ.vdsat]))

example : HasDerivAt (fun x => exN.drain (1 / 4) 1 x) (exN.gmb (1 / 4) 1 0) 0 :=
  C44_gmb_partial exN rfl (1 / 4) 1 0 (by norm_num) (by rw [exN_vt]; norm_num) (by norm_num [exN])
    (by norm_num [exN]) (by rw [exN_vt]; norm_num [exN, MQ.vdsat])

example : ∃ d, HasDerivAt (fun x => exP.drain (-(1 / 4)) (-1) x) d 0 ∧ 0 < d ∧
    exP.gmb (- -(1 / 4)) (- -1) (-0) = -d :=
  C44_gmb_p_refuted exP rfl (-(1 / 4)) (-1) 0 (by norm_num) (by rw [neg_zero, exP_vt]; norm_num)
    (by norm_num [exP, exN]) (by norm_num [exP, exN])
    (by rw [neg_zero, exP_vt]; norm_num [exP, exN, MQ.vdsat]) (by norm_num [MQ.beta, exP, exN])
    (by norm_num [exP, exN]) (by norm_num [exP, exN])

/-- With the default `LAMBDA` a gate voltage of 5 V lets a current flow at equal drain and source
voltages. -/
example : exN.drain 0 5 0 ≠ 0 :=
  C43_lambda_refuted exN 5 0 (by rw [show (0 : ℝ) * exN.NPMOS = 0 by ring, exN_vt]; norm_num [exN])
    (by rw [show (0 : ℝ) * exN.NPMOS = 0 by ring, exN_vt]; norm_num [exN])
    (by norm_num [MQ.beta, exN]) (by norm_num [exN])

example : exN.drain (-0) (1 / 4 - 0) (0 - 0) ≠ -exN.drain 0 (1 / 4) 0 :=
  C43_symmetric_refuted exN (1 / 4) 0
    (by rw [show (0 : ℝ) * exN.NPMOS = 0 by ring, exN_vt]; norm_num [exN]) (by norm_num [exN])
    (by rw [show (0 : ℝ) * exN.NPMOS = 0 by ring, exN_vt]; norm_num) (by norm_num [exN])
    (by norm_num [exN])

end Verif.Mosq
