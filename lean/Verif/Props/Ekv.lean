import Verif.Model.Ekv
import Mathlib.Analysis.SpecialFunctions.Log.Deriv
import Mathlib.Analysis.Calculus.Deriv.Add
import Mathlib.Analysis.Calculus.Deriv.Inv
import Mathlib.Topology.Order.IntermediateValue
import Mathlib.Tactic.Linarith
import Mathlib.Tactic.FieldSimp
import Mathlib.Tactic.Ring
import Mathlib.Tactic.NormNum
import Mathlib.Tactic.Positivity

/-!
Properties C46 (EKV normalised quantities, exchange of drain and source), C91 (constructors of the MOS
models) and C92 (p-type EKV transistor).
-/

namespace Verif.Ekv
open Real

/-! ### C46 -/

/-- C46: charge and current are inverse functions on non-negative values. -/
theorem C46_inverse_current (i : ℝ) (h : 0 ≤ i) : q2i (i2q i) = i := by
  unfold q2i i2q
  rw [max_eq_right h]
  have e := sq_sqrt (show (0 : ℝ) ≤ 0.25 + i by linarith)
  linear_combination e

theorem C46_inverse_charge (q : ℝ) (h : 0 ≤ q) : i2q (q2i q) = q := by
  unfold q2i i2q
  rw [max_eq_right (by positivity)]
  have : (0.25 : ℝ) + (q ^ 2 + q) = (q + 0.5) ^ 2 := by ring
  rw [this, sqrt_sq (by linarith)]
  ring

theorem i2q_nonneg (i : ℝ) : 0 ≤ i2q i := by
  unfold i2q
  have h : √((0.5 : ℝ) ^ 2) ≤ √(0.25 + max 0 i) := by
    apply sqrt_le_sqrt
    have := le_max_left (0 : ℝ) i
    norm_num
  rw [sqrt_sq (by norm_num)] at h
  linarith

theorem half_lt_sqrt {i : ℝ} (h : 0 < i) : 0.5 < √(0.25 + i) := by
  have : √((0.5 : ℝ) ^ 2) < √(0.25 + i) := by
    apply sqrt_lt_sqrt (by norm_num)
    norm_num
    exact h
  rwa [sqrt_sq (by norm_num)] at this

theorem i2q_eq {i : ℝ} (h : 0 < i) : i2q i = √(0.25 + i) - 0.5 := by
  unfold i2q; rw [max_eq_right h.le]

theorem i2q_pos {i : ℝ} (h : 0 < i) : 0 < i2q i := by
  rw [i2q_eq h]; have := half_lt_sqrt h; linarith

/-- C46: both are strictly increasing. -/
theorem C46_charge_increasing {i j : ℝ} (hi : 0 ≤ i) (h : i < j) : i2q i < i2q j := by
  unfold i2q
  rw [max_eq_right hi, max_eq_right (hi.trans h.le)]
  have := sqrt_lt_sqrt (show (0 : ℝ) ≤ 0.25 + i by linarith) (show 0.25 + i < 0.25 + j by linarith)
  linarith

/-- The documented relation `v = ln(q) + 2q`. -/
theorem vOf_eq {i : ℝ} (h : 0 < i) : vOf i = log (i2q i) + 2 * i2q i := by
  rw [i2q_eq h]; unfold vOf; ring

/-- C46: the normalised voltage is strictly increasing in the normalised current. -/
theorem C46_voltage_increasing {i j : ℝ} (hi : 0 < i) (h : i < j) : vOf i < vOf j := by
  rw [vOf_eq hi, vOf_eq (hi.trans h)]
  have h1 := C46_charge_increasing hi.le h
  have h2 := log_lt_log (i2q_pos hi) h1
  linarith

theorem vsmall_mono (e : Eps) {i j : ℝ} (hi : 0 ≤ i) (h : i ≤ j) : vsmall e i ≤ vsmall e j := by
  have key : ∀ x y : ℝ, 0 < x → x ≤ y → vOf x ≤ vOf y := by
    intro x y hx hxy
    rcases hxy.eq_or_lt with h | h
    · rw [h]
    · exact (C46_voltage_increasing hx h).le
  unfold vsmall
  rw [abs_of_nonneg hi, abs_of_nonneg (hi.trans h)]
  apply key
  · split
    · exact e.pos
    · exact e.pos.trans_le (by linarith)
  · split <;> split <;> linarith

/-- C46: every normalised voltage has exactly one positive normalised current. -/
theorem C46_unique_positive (v : ℝ) : ∃! x, 0 < x ∧ obj v x = 0 := by
  have hex : ∃ q, 0 < q ∧ log q + 2 * q = v := by
    have ha : 0 < min 1 (exp (v - 2)) := lt_min one_pos (exp_pos _)
    have h1 : log (min 1 (exp (v - 2))) + 2 * min 1 (exp (v - 2)) ≤ v := by
      have a : min 1 (exp (v - 2)) ≤ 1 := min_le_left _ _
      have b : log (min 1 (exp (v - 2))) ≤ v - 2 := by
        have := log_le_log ha (min_le_right 1 (exp (v - 2)))
        rwa [log_exp] at this
      linarith
    have h2 : v ≤ log (exp |v|) + 2 * exp |v| := by
      rw [log_exp]
      have := exp_pos |v|
      have := le_abs_self v
      linarith
    have hab : min 1 (exp (v - 2)) ≤ exp |v| :=
      (min_le_left _ _).trans (by rw [← exp_zero]; exact exp_le_exp.2 (abs_nonneg v))
    have hc : ContinuousOn (fun q : ℝ => log q + 2 * q) (Set.Icc (min 1 (exp (v - 2))) (exp |v|)) := by
      apply ContinuousOn.add
      · apply continuousOn_log.mono
        intro x hx
        simp only [Set.mem_compl_iff, Set.mem_singleton_iff]
        exact (ha.trans_le hx.1).ne'
      · fun_prop
    obtain ⟨q, hq, he⟩ := intermediate_value_Icc hab hc ⟨h1, h2⟩
    exact ⟨q, ha.trans_le hq.1, he⟩
  obtain ⟨q, hq, he⟩ := hex
  have hi : 0 < q2i q := by unfold q2i; positivity
  refine ⟨q2i q, ⟨hi, ?_⟩, ?_⟩
  · unfold obj
    rw [if_pos hi, vOf_eq hi, C46_inverse_charge q hq.le, he, sub_self]
  · rintro y ⟨hy, hy0⟩
    unfold obj at hy0
    rw [if_pos hy] at hy0
    have hv : vOf (q2i q) = v := by rw [vOf_eq hi, C46_inverse_charge q hq.le, he]
    rcases lt_trichotomy y (q2i q) with h | h | h
    · have := C46_voltage_increasing hy h; linarith
    · exact h
    · have := C46_voltage_increasing hi h; linarith

/-- C46: but the function given to Newton's method has a second zero for every voltage that is not
positive, because of its continuation to currents that are not positive. -/
theorem C46_unique_refuted (v : ℝ) (h : v ≤ 0) :
    ∃ x y, x ≠ y ∧ obj v x = 0 ∧ obj v y = 0 := by
  obtain ⟨x, ⟨hx, hx0⟩, -⟩ := C46_unique_positive v
  refine ⟨x, v, by linarith, hx0, ?_⟩
  unfold obj
  rw [if_neg (not_lt.2 h), sub_self]

theorem hasDerivAt_vOf {x : ℝ} (h : 0 < x) :
    HasDerivAt vOf (0.5 / (√(0.25 + x) - 0.5) / √(0.25 + x) + 1 / √(0.25 + x)) x := by
  have hs := half_lt_sqrt h
  have h0 : HasDerivAt (fun x : ℝ => 0.25 + x) 1 x := (hasDerivAt_id x).const_add _
  have h1 : HasDerivAt (fun x : ℝ => √(0.25 + x)) (1 / (2 * √(0.25 + x))) x :=
    h0.sqrt (by linarith)
  have h2 := (((h1.sub_const 0.5).log (by linarith)).add (h1.const_mul 2)).sub_const 1
  have e : 1 / (2 * √(0.25 + x)) / (√(0.25 + x) - 0.5) + 2 * (1 / (2 * √(0.25 + x))) =
      0.5 / (√(0.25 + x) - 0.5) / √(0.25 + x) + 1 / √(0.25 + x) := by
    have a : √(0.25 + x) ≠ 0 := by linarith
    have b : √(0.25 + x) - 0.5 ≠ 0 := by linarith
    field_simp
    ring
  rw [e] at h2
  exact h2

/-- C46: the derivative given to Newton's method is the true one from `EPS` on. -/
theorem C46_derivative_partial (e : Eps) (v x : ℝ) (h : e.eps ≤ x) :
    HasDerivAt (obj v) (objPrime e x) x := by
  have hx : 0 < x := e.pos.trans_le h
  have hev : obj v =ᶠ[nhds x] fun x => vOf x - v := by
    filter_upwards [Ioi_mem_nhds hx] with y hy
    unfold obj
    rw [if_pos (Set.mem_Ioi.1 hy)]
  have h1 := ((hasDerivAt_vOf hx).sub_const v).congr_of_eventuallyEq hev
  unfold objPrime
  simp only
  rw [if_neg (not_lt.2 h)]
  exact h1

/-- C46: below it is not: for negative currents the slope is 1 but the derivative given is the one at
`10·EPS`. -/
theorem C46_derivative_refuted (e : Eps) (v x : ℝ) (h : x < 0) :
    HasDerivAt (obj v) 1 x ∧ objPrime e x = 1 / i2q (10 * e.eps) := by
  constructor
  · have hev : obj v =ᶠ[nhds x] fun x => x - v := by
      filter_upwards [Iio_mem_nhds h] with y hy
      unfold obj
      rw [if_neg (not_lt.2 (Set.mem_Iio.1 hy).le)]
    exact ((hasDerivAt_id x).sub_const v).congr_of_eventuallyEq hev
  · have hp : 0 < 10 * e.eps := by have := e.pos; positivity
    unfold objPrime
    simp only
    rw [if_pos (h.trans e.pos), i2q_eq hp]
    have := half_lt_sqrt hp
    have a : √(0.25 + 10 * e.eps) ≠ 0 := by linarith
    have b : √(0.25 + 10 * e.eps) - 0.5 ≠ 0 := by linarith
    field_simp
    ring

/-- C46: the derivative is the reciprocal of the charge, which is what makes `Gs·q` the conductances. -/
theorem C46_dvdi (x : ℝ) (h : 0 < x) : HasDerivAt vOf (1 / i2q x) x := by
  have h1 := hasDerivAt_vOf h
  have e : 0.5 / (√(0.25 + x) - 0.5) / √(0.25 + x) + 1 / √(0.25 + x) = 1 / i2q x := by
    rw [i2q_eq h]
    have := half_lt_sqrt h
    have a : √(0.25 + x) ≠ 0 := by linarith
    have b : √(0.25 + x) - 0.5 ≠ 0 := by linarith
    field_simp
    ring
  rw [e] at h1
  exact h1

/-- C46: the second derivative given to Newton's method is the derivative of the first one. -/
theorem C46_second_derivative (e : Eps) (x : ℝ) (h : e.eps < x) :
    HasDerivAt (objPrime e) (objPrime2 e x) x := by
  have hx : 0 < x := e.pos.trans h
  have hev : objPrime e =ᶠ[nhds x] fun x => 1 / (√(0.25 + x) - 0.5) := by
    filter_upwards [Ioi_mem_nhds h] with y hy
    have hy' : e.eps < y := hy
    have hy0 : 0 < y := e.pos.trans hy'
    unfold objPrime
    simp only
    rw [if_neg (not_lt.2 hy'.le)]
    have := half_lt_sqrt hy0
    have a : √(0.25 + y) ≠ 0 := by linarith
    have b : √(0.25 + y) - 0.5 ≠ 0 := by linarith
    field_simp
    ring
  have hs := half_lt_sqrt hx
  have h0 : HasDerivAt (fun x : ℝ => 0.25 + x) 1 x := (hasDerivAt_id x).const_add _
  have h1 : HasDerivAt (fun x : ℝ => √(0.25 + x) - 0.5) (1 / (2 * √(0.25 + x))) x :=
    (h0.sqrt (by linarith)).sub_const _
  have h2 := (hasDerivAt_const x (1 : ℝ)).div h1 (by linarith)
  have h3 := h2.congr_of_eventuallyEq hev
  have e1 : (0 * (√(0.25 + x) - 0.5) - 1 * (1 / (2 * √(0.25 + x)))) / (√(0.25 + x) - 0.5) ^ 2 =
      objPrime2 e x := by
    unfold objPrime2
    simp only
    rw [if_neg (not_lt.2 h.le), add_comm x 0.25]
    have hr : (0.25 + x) ^ (3 / 2 : ℝ) = √(0.25 + x) ^ 3 := by
      rw [sqrt_eq_rpow, ← rpow_natCast, ← rpow_mul (by linarith)]
      norm_num
    rw [hr]
    set s := √(0.25 + x) with hsdef
    have hsq : 0.25 + x = s ^ 2 := (sq_sqrt (by linarith)).symm
    rw [hsq]
    have a : s ≠ 0 := by linarith
    have b : s - 0.5 ≠ 0 := by linarith
    have c : s * 2 - 1 ≠ 0 := by intro hh; apply b; linarith
    field_simp
    ring
  rw [e1] at h3
  exact h3

/-- At equal drain and source voltages forward and reverse voltage agree. -/
theorem leqVirp_equal (m : EM) (v vp ifn : ℝ) (hv : m.Vth ≠ 0) :
    (m.leqVirp v v vp ifn).2 = vp / m.Vth - v := by
  simp only [EM.leqVirp, sub_self, zero_mul, sub_zero, zero_sub, neg_sq]
  field_simp
  ring

/-- C46: exchanging drain and source reverses the current exactly, also when they are equal. (`ism`
stands for the solution of Newton's method, here without its dependence on the starting point.) -/
theorem C46_swap (m : EM) (ism : ℝ → ℝ) (vd vg vs : ℝ) (hv : m.Vth ≠ 0) :
    m.ids ism vs vg vd = -m.ids ism vd vg vs := by
  rcases lt_trichotomy (vd * m.NPMOS) (vs * m.NPMOS) with h | h | h
  · have h1 : ¬ (vd * m.NPMOS > vs * m.NPMOS) := not_lt.2 h.le
    simp only [EM.ids, EM.voltages]
    rw [if_neg h1, if_pos h]
    simp only
    ring
  · have hz : m.norm ism (vd * m.NPMOS, vg * m.NPMOS, vd * m.NPMOS) =
        (ism (m.vp (vg * m.NPMOS) / m.Vth - vd * m.NPMOS / m.Vth),
          ism (m.vp (vg * m.NPMOS) / m.Vth - vd * m.NPMOS / m.Vth),
          (m.norm ism (vd * m.NPMOS, vg * m.NPMOS, vd * m.NPMOS)).2.2) := by
      simp only [EM.norm]
      rw [leqVirp_equal m _ _ _ hv]
    simp only [EM.ids, EM.voltages]
    rw [← h, if_neg (lt_irrefl _)]
    simp only
    rw [hz]
    simp
  · have h1 : ¬ (vs * m.NPMOS > vd * m.NPMOS) := not_lt.2 h.le
    simp only [EM.ids, EM.voltages]
    rw [if_neg h1, if_pos h]
    simp only
    ring

/-! ### C92: p-type -/

/-- C92: n- and p-type devices with the same internal parameters have mirrored currents, and equal drain
and source conductances. -/
theorem C92_mirror_partial (m : EM) (h : m.NPMOS = 1) (ism : ℝ → ℝ) (vd vg vs : ℝ) :
    ({ m with NPMOS := -1 } : EM).ids ism (-vd) (-vg) (-vs) = -m.ids ism vd vg vs ∧
    ({ m with NPMOS := -1 } : EM).gmd ism (-vd) (-vg) (-vs) = m.gmd ism vd vg vs ∧
    ({ m with NPMOS := -1 } : EM).gms ism (-vd) (-vg) (-vs) = m.gms ism vd vg vs := by
  have hv : ({ m with NPMOS := -1 } : EM).voltages (-vd) (-vg) (-vs) = m.voltages vd vg vs := by
    simp only [EM.voltages, h]
    have e1 : -vd * -1 = vd * 1 := by ring
    have e2 : -vg * -1 = vg * 1 := by ring
    have e3 : -vs * -1 = vs * 1 := by ring
    rw [e1, e2, e3]
  have hn : ∀ v, ({ m with NPMOS := -1 } : EM).norm ism v = m.norm ism v := fun v => rfl
  have hs : ∀ v, ({ m with NPMOS := -1 } : EM).spec v = m.spec v := fun v => rfl
  have hg : ∀ v, ({ m with NPMOS := -1 } : EM).gspec v = m.gspec v := fun v => rfl
  refine ⟨?_, ?_, ?_⟩
  · simp only [EM.ids]
    rw [hv, hn, hs, h]
    ring
  · simp only [EM.gmd]
    rw [hv, hn, hg]
  · simp only [EM.gms]
    rw [hv, hn, hg]

/-- A device with threshold 2 V. -/
noncomputable def exE : EM :=
  { NPMOS := 1, VTO := 2, GAMMA := 1, PHI := 1, KP := 1, LAMBDA := 0, UCRIT := 1, Lc := 1, Vth := 1,
    W := 1, L := 1, M := 1, N := 1 }

/-- C92: the gate conductance of a p-type device uses the slope factor for the gate voltage with the
wrong sign: the ratio to the one of the n-type device is the ratio of the slope factors, and this is not 1. -/
theorem C92_gmg_refuted :
    (∀ (m : EM) (ism : ℝ → ℝ) (vd vg vs : ℝ), m.NPMOS = 1 → m.nv vg ≠ 0 → m.nv (-vg) ≠ 0 →
      ({ m with NPMOS := -1 } : EM).gmg ism (-vd) (-vg) (-vs) * m.nv (-vg) = m.gmg ism vd vg vs * m.nv vg) ∧
    exE.nv (-2) ≠ exE.nv 2 := by
  constructor
  · intro m ism vd vg vs h h1 h2
    have hv : ({ m with NPMOS := -1 } : EM).voltages (-vd) (-vg) (-vs) = m.voltages vd vg vs := by
      simp only [EM.voltages, h]
      have e1 : -vd * -1 = vd * 1 := by ring
      have e2 : -vg * -1 = vg * 1 := by ring
      have e3 : -vs * -1 = vs * 1 := by ring
      rw [e1, e2, e3]
    have hn : ∀ v, ({ m with NPMOS := -1 } : EM).norm ism v = m.norm ism v := fun v => rfl
    have hg : ∀ v, ({ m with NPMOS := -1 } : EM).gspec v = m.gspec v := fun v => rfl
    have hnv : ∀ v, ({ m with NPMOS := -1 } : EM).nv v = m.nv v := fun v => rfl
    simp only [EM.gmg]
    rw [hv, hn, hg, hnv]
    field_simp
  · have h1 : exE.vp (-2) = -1 := by
      simp only [EM.vp, exE]
      norm_num
    have h2 : exE.vp 2 = 0 := by
      simp only [EM.vp, exE, sqrt_one]
      have : √((2 : ℝ) - 2 + (1 + 1 / 2) ^ 2) = 3 / 2 := by
        rw [show (2 : ℝ) - 2 + (1 + 1 / 2) ^ 2 = (3 / 2) ^ 2 by norm_num, sqrt_sq (by norm_num)]
      rw [this]
      norm_num
    have e1 : exE.nv (-2) = 1 + 0.5 * 1 / √(1 / 10 ^ 12) := by
      unfold EM.nv; rw [h1]; simp [exE]
    have e2 : exE.nv 2 = 1 + 0.5 * 1 / √(1 + 0 + 1 / 10 ^ 12) := by
      unfold EM.nv; rw [h2]; simp [exE]
    rw [e1, e2]
    intro h
    have h3 : √((1 : ℝ) / 10 ^ 12) < √(1 + 0 + 1 / 10 ^ 12) := sqrt_lt_sqrt (by positivity) (by linarith)
    have h4 : 0 < √((1 : ℝ) / 10 ^ 12) := sqrt_pos.2 (by positivity)
    have h5 : 0.5 * 1 / √(1 + 0 + 1 / 10 ^ 12) < 0.5 * 1 / √((1 : ℝ) / 10 ^ 12) :=
      div_lt_div_of_pos_left (by norm_num) h4 h3
    linarith

/-! ### C91: constructors -/

/-- C91: `mosq_mos_model` accepts exactly the types n and p, in both cases. -/
theorem C91_mosq_type (a : Args) (hv : a.VTO ≠ none) :
    (∃ r, mosqCtor a = .ok r) ↔ a.TYPE ∈ ["n", "N", "p", "P"] := by
  obtain ⟨v, hv⟩ := Option.ne_none_iff_exists'.1 hv
  unfold mosqCtor
  rw [hv]
  by_cases h1 : a.TYPE = "n" ∨ a.TYPE = "N"
  · rw [if_pos h1]
    constructor
    · intro _; rcases h1 with h | h <;> simp [h]
    · intro _; exact ⟨_, rfl⟩
  · rw [if_neg h1]
    by_cases h2 : a.TYPE = "p" ∨ a.TYPE = "P"
    · rw [if_pos h2]
      constructor
      · intro _; rcases h2 with h | h <;> simp [h]
      · intro _; exact ⟨_, rfl⟩
    · rw [if_neg h2]
      constructor
      · rintro ⟨r, hr⟩
        simp [bind, Except.bind] at hr
      · intro h
        simp only [List.mem_cons, List.not_mem_nil, or_false] at h
        tauto

/-- C91: `ekv_mos_model` takes everything but a lower case n for a p-type: capital N, too. -/
theorem C91_ekv_type_refuted (a : Args) (h : a.TYPE ≠ "n") (r : Attrs) (hr : ekvCtor a = .ok r) :
    r.NPMOS = -1 := by
  unfold ekvCtor at hr
  simp only [if_neg h] at hr
  cases hv : a.VTO with
  | some v =>
    rw [hv] at hr
    simp only [bind, Except.bind, pure, Except.pure, Except.ok.injEq] at hr
    rw [← hr]
  | none =>
    rw [hv] at hr
    cases hf : a.VFB with
    | none =>
      rw [hf] at hr
      simp only [bind, Except.bind, pure, Except.pure, Except.ok.injEq] at hr
      rw [← hr]
    | some f =>
      rw [hf] at hr
      cases hx : vtoFromVfb a f with
      | error e => simp [hx, bind, Except.bind] at hr
      | ok y =>
        simp only [hx, bind, Except.bind, pure, Except.pure, Except.ok.injEq] at hr
        rw [← hr]

example : ekvCtor { TYPE := "N", VTO := some 1 } = .ok { NPMOS := -1, VTO := -1, TCV := -tcvDefault } := by
  decide +kernel

/-- C91: with explicit threshold and temperature coefficient of opposite sign a p-type model has the
internal parameters of the n-type one. -/
theorem C91_mirror_partial (v t : ℚ) :
    ∃ r, mosqCtor { TYPE := "n", VTO := some v, TCV := some t } = .ok r ∧ r.NPMOS = 1 ∧
      mosqCtor { TYPE := "p", VTO := some (-v), TCV := some (-t) } = .ok { r with NPMOS := -1 } ∧
      ekvCtor { TYPE := "n", VTO := some v, TCV := some t } = .ok r ∧
      ekvCtor { TYPE := "p", VTO := some (-v), TCV := some (-t) } = .ok { r with NPMOS := -1 } := by
  refine ⟨{ NPMOS := 1, VTO := v, TCV := t }, ?_, rfl, ?_, ?_, ?_⟩ <;>
    simp [mosqCtor, ekvCtor, bind, Except.bind, pure, Except.pure]

/-- C91: with the defaults the p-type EKV model has a threshold of the wrong sign, both models a temperature
coefficient of the wrong sign, and a threshold from `VFB` is not mirrored (and needs `PHI` and `GAMMA`). -/
theorem C91_mirror_refuted :
    ((ekvCtor { TYPE := "n" }).toOption.map (·.VTO), (ekvCtor { TYPE := "p" }).toOption.map (·.VTO)) =
      (some (1 / 2), some (-1 / 2)) ∧
    ((mosqCtor { TYPE := "n" }).toOption.map (·.TCV), (mosqCtor { TYPE := "p" }).toOption.map (·.TCV)) =
      (some (1 / 1000), some (-1 / 1000)) ∧
    ((mosqCtor { TYPE := "n", VFB := some 1, PHI := some 1, GAMMA := some 1 }).toOption.map (·.VTO),
      (mosqCtor { TYPE := "p", VFB := some (-1), PHI := some 1, GAMMA := some 1 }).toOption.map (·.VTO)) =
      (some 3, some 1) ∧
    mosqCtor { TYPE := "n", VFB := some 1 } = .error .typeError := by
  decide +kernel

end Verif.Ekv
