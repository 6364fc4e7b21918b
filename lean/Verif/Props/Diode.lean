import Verif.Model.Diode
import Mathlib.Analysis.SpecialFunctions.ExpDeriv
import Mathlib.Analysis.Calculus.Deriv.Inv
import Mathlib.Tactic.Linarith
import Mathlib.Tactic.FieldSimp
import Mathlib.Tactic.Ring
import Mathlib.Tactic.NormNum
import Mathlib.Tactic.Positivity

/-!
Properties C42 (current and conductance of the diode) and C90 (its temperature).
-/

namespace Verif.Diode
open Real

/-- Parameters that make sense physically. -/
structure DM.Ok (m : DM) : Prop where
  IS : 0 < m.IS
  N : 0 < m.N
  NBV : 0 < m.NBV
  ISR : 0 ≤ m.ISR
  NR : 0 < m.NR
  VT : 0 < m.VT

theorem safeExp_strictMono : StrictMono safeExp := by
  intro x y h
  unfold safeExp
  by_cases hy : y < 70
  · rw [if_pos hy, if_pos (h.trans hy)]
    exact exp_lt_exp.2 h
  · rw [if_neg hy]
    by_cases hx : x < 70
    · rw [if_pos hx]
      have := exp_lt_exp.2 hx
      linarith
    · rw [if_neg hx]; linarith

theorem safeExp_pos (x : ℝ) : 0 < safeExp x := by
  unfold safeExp
  split
  · exact exp_pos x
  · have := exp_pos 70; linarith

theorem safeExp_zero : safeExp 0 = 1 := by
  unfold safeExp; norm_num

theorem breakdown_anti (bv : Option ℝ) (s : ℝ) (hs : 0 < s) {v w : ℝ} (h : v ≤ w) :
    breakdown bv w s ≤ breakdown bv v s := by
  cases bv with
  | none => exact le_refl _
  | some b =>
    apply safeExp_strictMono.monotone
    apply div_le_div_of_nonneg_right _ hs.le
    linarith

theorem kinj_pos (ikf : Option ℝ) (f : ℝ) : 0 < kinj ikf f := by
  cases ikf with
  | none => exact one_pos
  | some k =>
    unfold kinj
    simp only
    split
    · rename_i h
      exact sqrt_pos.2 (div_pos h.1 (add_pos h.1 h.2))
    · exact one_pos

/-- The forward term with its high-injection factor increases with the forward term. -/
theorem kinj_mul_strictMono (ikf : Option ℝ) {f g : ℝ} (h : f < g) :
    kinj ikf f * f < kinj ikf g * g := by
  by_cases hf : f ≤ 0
  · have h1 : kinj ikf f * f = f := by
      cases ikf with
      | none => simp [kinj]
      | some k => simp only [kinj]; rw [if_neg (fun hh => absurd hh.2 (not_lt.2 hf)), one_mul]
    by_cases hg : g ≤ 0
    · have h2 : kinj ikf g * g = g := by
        cases ikf with
        | none => simp [kinj]
        | some k => simp only [kinj]; rw [if_neg (fun hh => absurd hh.2 (not_lt.2 hg)), one_mul]
      rw [h1, h2]; exact h
    · rw [h1]
      have := mul_pos (kinj_pos ikf g) (not_le.1 hg)
      linarith
  · have hf0 : 0 < f := not_le.1 hf
    have hg0 : 0 < g := hf0.trans h
    cases ikf with
    | none => simp only [kinj, one_mul]; exact h
    | some k =>
      by_cases hk : 0 < k
      · simp only [kinj]
        rw [if_pos ⟨hk, hf0⟩, if_pos ⟨hk, hg0⟩]
        have key : ∀ x, 0 < x → √(k / (k + x)) * x = √(k * x ^ 2 / (k + x)) := by
          intro x hx
          rw [mul_div_right_comm, sqrt_mul (div_pos hk (add_pos hk hx)).le, sqrt_sq hx.le]
        rw [key f hf0, key g hg0]
        apply sqrt_lt_sqrt
        · positivity
        · rw [div_lt_div_iff₀ (by linarith) (by linarith)]
          have e : k * g ^ 2 * (k + f) - k * f ^ 2 * (k + g) =
              k * (g - f) * (k * (g + f) + f * g) := by ring
          have : 0 < k * (g - f) * (k * (g + f) + f * g) := by
            have : 0 < g - f := sub_pos.2 h
            positivity
          linarith
      · simp only [kinj]
        rw [if_neg (fun hh => hk hh.1), if_neg (fun hh => hk hh.1), one_mul, one_mul]; exact h

theorem fwd_strictMono (m : DM) (h : m.Ok) : StrictMono m.fwd := by
  intro v w hvw
  unfold DM.fwd
  have hs : 0 < m.N * m.VT := mul_pos h.N h.VT
  have := safeExp_strictMono (div_lt_div_of_pos_right hvw hs)
  have := mul_lt_mul_of_pos_left this h.IS
  nlinarith

/-- C42: the current is a strictly increasing function of the voltage, for all parameters. -/
theorem C42_increasing (m : DM) (h : m.Ok) (area : ℝ) (ha : 0 < area) :
    StrictMono (m.getI area) := by
  intro v w hvw
  unfold DM.getI DM.cur DM.recomb DM.rev
  have h1 := kinj_mul_strictMono m.IKF (fwd_strictMono m h hvw)
  have h2 := safeExp_strictMono.monotone
    (div_le_div_of_nonneg_right hvw.le (mul_pos h.NR h.VT).le)
  have h3 := breakdown_anti m.BV (m.NBV * m.VT) (mul_pos h.NBV h.VT) hvw.le
  have h4 := mul_le_mul_of_nonneg_left h2 h.ISR
  have h5 := mul_le_mul_of_nonneg_left h3 h.IS.le
  apply mul_lt_mul_of_pos_right _ ha
  nlinarith

/-- C42: the current at 0 V is not zero: it is the saturation current for an infinite breakdown voltage
(the default), and nearly so for a finite one. -/
theorem C42_zero_refuted (m : DM) (h : m.Ok) (area : ℝ) (ha : 0 < area)
    (hb : ∀ b, m.BV = some b → 0 < b) :
    m.getI area 0 = m.IS * (1 - breakdown m.BV 0 (m.NBV * m.VT)) * area ∧ 0 < m.getI area 0 ∧
      (m.BV = none → m.getI area 0 = m.IS * area) := by
  have e : m.getI area 0 = m.IS * (1 - breakdown m.BV 0 (m.NBV * m.VT)) * area := by
    unfold DM.getI DM.cur DM.recomb DM.rev DM.fwd
    simp only [zero_div, safeExp_zero, sub_self, mul_zero, zero_add]
    ring
  refine ⟨e, ?_, ?_⟩
  · rw [e]
    have hlt : breakdown m.BV 0 (m.NBV * m.VT) < 1 := by
      cases hm : m.BV with
      | none => exact one_pos
      | some b =>
        unfold breakdown
        simp only
        rw [← safeExp_zero]
        apply safeExp_strictMono
        have hs : 0 < m.NBV * m.VT := mul_pos h.NBV h.VT
        have := hb b hm
        rw [div_lt_iff₀ hs]
        linarith
    have : 0 < 1 - breakdown m.BV 0 (m.NBV * m.VT) := by linarith
    exact mul_pos (mul_pos h.IS this) ha
  · intro hn
    rw [e, hn]
    simp [breakdown]

theorem hasDerivAt_safeExp {x : ℝ} (hx : x < 70) : HasDerivAt safeExp (safeExp x) x := by
  have h : safeExp =ᶠ[nhds x] exp := by
    filter_upwards [Iio_mem_nhds hx] with y hy
    unfold safeExp
    rw [if_pos (Set.mem_Iio.1 hy)]
  have e : safeExp x = exp x := by unfold safeExp; rw [if_pos hx]
  rw [e]
  exact (hasDerivAt_exp x).congr_of_eventuallyEq h

theorem hasDerivAt_safeExp_large {x : ℝ} (hx : 70 < x) : HasDerivAt safeExp 10 x := by
  have h : safeExp =ᶠ[nhds x] fun y => exp 70 + 10 * y := by
    filter_upwards [Ioi_mem_nhds hx] with y hy
    unfold safeExp
    rw [if_neg (not_lt.2 (le_of_lt hy))]
  have h2 : HasDerivAt (fun y : ℝ => exp 70 + 10 * y) 10 x := by
    have := ((hasDerivAt_id x).const_mul 10).const_add (exp 70)
    simpa using this
  exact h2.congr_of_eventuallyEq h

theorem hasDerivAt_scaled (a s v d : ℝ) (hd : HasDerivAt safeExp d (v / s)) :
    HasDerivAt (fun v => a * (safeExp (v / s) - 1)) (a / s * d) v := by
  have h1 : HasDerivAt (fun v : ℝ => v / s) (1 / s) v := (hasDerivAt_id v).div_const s
  have h2 := ((hd.comp v h1).sub_const 1).const_mul a
  have e : a * (d * (1 / s)) = a / s * d := by ring
  rw [e] at h2
  exact h2

/-- The derivative of the current with a breakdown term but without high injection. -/
theorem hasDerivAt_cur (m : DM) (v : ℝ) (hk : m.IKF = none)
    (hf : v / (m.N * m.VT) < 70) (hr : v / (m.NR * m.VT) < 70)
    (hb : ∀ b, m.BV = some b → -(v + b) / (m.NBV * m.VT) < 70) :
    HasDerivAt m.cur (m.IS / (m.N * m.VT) * safeExp (v / (m.N * m.VT)) +
      m.ISR / (m.NR * m.VT) * safeExp (v / (m.NR * m.VT)) +
      m.IS / (m.NBV * m.VT) * breakdown m.BV v (m.NBV * m.VT)) v := by
  have h1 := hasDerivAt_scaled m.IS _ v _ (hasDerivAt_safeExp hf)
  have h2 := hasDerivAt_scaled m.ISR _ v _ (hasDerivAt_safeExp hr)
  have h3 : HasDerivAt m.rev (m.IS / (m.NBV * m.VT) * breakdown m.BV v (m.NBV * m.VT)) v := by
    cases hm : m.BV with
    | none =>
      have : m.rev = fun _ => -m.IS * (0 - 1) := by funext w; simp [DM.rev, hm, breakdown]
      rw [this]
      simp only [breakdown, mul_zero]
      exact hasDerivAt_const _ _
    | some b =>
      have e0 : m.rev = fun w => -m.IS * (safeExp (-(w + b) / (m.NBV * m.VT)) - 1) := by
        funext w; simp [DM.rev, hm, breakdown]
      rw [e0]
      have g1 : HasDerivAt (fun w : ℝ => -(w + b) / (m.NBV * m.VT)) (-1 / (m.NBV * m.VT)) v := by
        have := (((hasDerivAt_id v).add_const b).neg).div_const (m.NBV * m.VT)
        simpa using this
      have g2 := (((hasDerivAt_safeExp (hb b hm)).comp v g1).sub_const 1).const_mul (-m.IS)
      have e : -m.IS * (safeExp (-(v + b) / (m.NBV * m.VT)) * (-1 / (m.NBV * m.VT))) =
          m.IS / (m.NBV * m.VT) * breakdown (some b) v (m.NBV * m.VT) := by
        simp only [breakdown]; ring
      rw [e] at g2
      exact g2
  have e : m.cur = fun v => m.IS * (safeExp (v / (m.N * m.VT)) - 1) +
      m.ISR * (safeExp (v / (m.NR * m.VT)) - 1) + m.rev v := by
    funext w
    simp [DM.cur, hk, kinj, DM.fwd, DM.recomb]
  rw [e]
  exact (h1.add h2).add h3

/-- C42: without breakdown, high injection and series resistance, and below 70 times the thermal
voltages, the conductance is the derivative of the current. Missing: all these (below). -/
theorem C42_derivative_partial (m : DM) (gmin area v : ℝ) (hk : m.IKF = none) (hb : m.BV = none)
    (hrs : m.RS = 0) (hf : v / (m.N * m.VT) < 70) (hr : v / (m.NR * m.VT) < 70) :
    HasDerivAt (m.getI area) (m.gm gmin area v) v := by
  have h := (hasDerivAt_cur m v hk hf hr (by rw [hb]; intro b hb'; cases hb')).mul_const area
  have e : m.gm gmin area v = (m.IS / (m.N * m.VT) * safeExp (v / (m.N * m.VT)) +
      m.ISR / (m.NR * m.VT) * safeExp (v / (m.NR * m.VT)) +
      m.IS / (m.NBV * m.VT) * breakdown m.BV v (m.NBV * m.VT)) * area := by
    simp only [DM.gm, hrs, hb, breakdown, ne_eq, not_true_eq_false, if_false]
    ring
  rw [e]
  exact h

/-- C42: with a finite breakdown voltage the conductance is always smaller than the derivative: the
breakdown term has the wrong sign (and lacks the factor `NBV`). -/
theorem C42_breakdown_refuted (m : DM) (h : m.Ok) (gmin area v b : ℝ) (ha : 0 < area)
    (hk : m.IKF = none) (hb : m.BV = some b) (hrs : m.RS = 0)
    (hf : v / (m.N * m.VT) < 70) (hr : v / (m.NR * m.VT) < 70)
    (hv : -(v + b) / (m.NBV * m.VT) < 70) :
    ∃ d, HasDerivAt (m.getI area) d v ∧ m.gm gmin area v < d := by
  refine ⟨_, (hasDerivAt_cur m v hk hf hr (by
    rw [hb]; intro b' hb'; cases hb'; exact hv)).mul_const area, ?_⟩
  have h1 : 0 < m.IS / (m.NBV * m.VT) * breakdown m.BV v (m.NBV * m.VT) := by
    rw [hb]; exact mul_pos (div_pos h.IS (mul_pos h.NBV h.VT)) (safeExp_pos _)
  have h2 : -m.IS / m.VT * breakdown m.BV v m.VT < 0 := by
    rw [hb]
    have := mul_pos (div_pos h.IS h.VT) (safeExp_pos (-(v + b) / m.VT))
    simp only [breakdown]
    have e : -m.IS / m.VT * safeExp (-(v + b) / m.VT) = -(m.IS / m.VT * safeExp (-(v + b) / m.VT)) := by
      ring
    rw [e]; linarith
  simp only [DM.gm, hrs, ne_eq, not_true_eq_false, if_false]
  nlinarith

/-- C42: above 70 times the thermal voltage the current is continued with slope `10·IS/(N·VT)`, but
the conductance is not its slope. -/
theorem C42_large_refuted (m : DM) (h : m.Ok) (gmin area v : ℝ) (ha : 0 < area)
    (hk : m.IKF = none) (hb : m.BV = none) (hrs : m.RS = 0) (hi : m.ISR = 0)
    (hf : 70 < v / (m.N * m.VT)) :
    HasDerivAt (m.getI area) (m.IS / (m.N * m.VT) * 10 * area) v ∧
      m.IS / (m.N * m.VT) * 10 * area < m.gm gmin area v := by
  constructor
  · have h1 := hasDerivAt_scaled m.IS _ v _ (hasDerivAt_safeExp_large hf)
    have e : m.getI area = fun v => (m.IS * (safeExp (v / (m.N * m.VT)) - 1) + m.IS) * area := by
      funext w
      simp [DM.getI, DM.cur, hk, kinj, DM.fwd, DM.recomb, hi, DM.rev, hb, breakdown]
    rw [e]
    exact (h1.add_const _).mul_const area
  · simp only [DM.gm, hrs, hb, hi, breakdown, ne_eq, not_true_eq_false, if_false, zero_div, zero_mul,
      mul_zero, add_zero]
    have h2 : 10 < safeExp (v / (m.N * m.VT)) := by
      unfold safeExp
      rw [if_neg (not_lt.2 hf.le)]
      have := exp_pos 70
      linarith
    have h3 := mul_lt_mul_of_pos_left h2 (div_pos h.IS (mul_pos h.N h.VT))
    nlinarith

/-- C42: the current jumps at 70 times the thermal voltage. -/
theorem C42_jump_refuted : ¬ ContinuousAt safeExp 70 := by
  intro h
  have h1 : Filter.Tendsto safeExp (nhdsWithin 70 (Set.Iio 70)) (nhds (safeExp 70)) :=
    h.tendsto.mono_left nhdsWithin_le_nhds
  have h2 : Filter.Tendsto safeExp (nhdsWithin 70 (Set.Iio 70)) (nhds (exp 70)) := by
    have h3 : Filter.Tendsto exp (nhdsWithin 70 (Set.Iio 70)) (nhds (exp 70)) :=
      continuous_exp.continuousAt.tendsto.mono_left nhdsWithin_le_nhds
    apply h3.congr'
    filter_upwards [self_mem_nhdsWithin] with x hx
    unfold safeExp
    rw [if_pos (Set.mem_Iio.1 hx)]
  have := tendsto_nhds_unique h1 h2
  unfold safeExp at this
  norm_num at this

/-- C42: with a finite knee current the conductance ignores the high-injection factor: it is larger than
the derivative at every positive voltage (below 70 thermal voltages). -/
theorem C42_injection_refuted (m : DM) (h : m.Ok) (gmin area v k : ℝ) (ha : 0 < area)
    (hk : m.IKF = some k) (hk0 : 0 < k) (hb : m.BV = none) (hrs : m.RS = 0) (hv : 0 < v)
    (hf : v / (m.N * m.VT) < 70) (hr : v / (m.NR * m.VT) < 70) :
    ∃ d, HasDerivAt (m.getI area) d v ∧ d < m.gm gmin area v := by
  have hs : 0 < m.N * m.VT := mul_pos h.N h.VT
  have hpos : ∀ w, 0 < w → 0 < m.fwd w := by
    intro w hw
    have := fwd_strictMono m h hw
    have e : m.fwd 0 = 0 := by simp [DM.fwd, safeExp_zero]
    rw [e] at this; exact this
  have h1 : HasDerivAt m.fwd (m.IS / (m.N * m.VT) * safeExp (v / (m.N * m.VT))) v :=
    hasDerivAt_scaled m.IS _ v _ (hasDerivAt_safeExp hf)
  have h2 := hasDerivAt_scaled m.ISR _ v _ (hasDerivAt_safeExp hr)
  set f := m.fwd v with hfdef
  set f' := m.IS / (m.N * m.VT) * safeExp (v / (m.N * m.VT)) with hf'
  have hf0 : 0 < f := hpos v hv
  have hf'0 : 0 < f' := mul_pos (div_pos h.IS hs) (safeExp_pos _)
  have hkf : 0 < k + f := by linarith
  have hq : 0 < k / (k + f) := div_pos hk0 hkf
  -- derivative of the factor
  have g1 : HasDerivAt (fun w => k / (k + m.fwd w)) (-(k * f') / (k + f) ^ 2) v := by
    have := (hasDerivAt_const v k).div (h1.const_add k) hkf.ne'
    have e : (0 * (k + m.fwd v) - k * f') / (k + m.fwd v) ^ 2 = -(k * f') / (k + f) ^ 2 := by
      rw [zero_mul, zero_sub]
    rw [e] at this
    exact this
  have g2 := (g1.sqrt hq.ne').mul h1
  have hcur : m.cur =ᶠ[nhds v] fun w => √(k / (k + m.fwd w)) * m.fwd w +
      m.ISR * (safeExp (w / (m.NR * m.VT)) - 1) + m.IS := by
    filter_upwards [Ioi_mem_nhds hv] with w hw
    simp only [DM.cur, hk, kinj, DM.recomb, DM.rev, hb, breakdown]
    rw [if_pos ⟨hk0, hpos w hw⟩]
    ring
  have g3 := ((g2.add h2).add_const m.IS).congr_of_eventuallyEq hcur
  refine ⟨_, g3.mul_const area, ?_⟩
  have hsq : √(k / (k + f)) < 1 := by
    rw [sqrt_lt' one_pos, one_pow, div_lt_one hkf]; linarith
  have hsp : 0 < √(k / (k + f)) := sqrt_pos.2 hq
  have hneg : -(k * f') / (k + f) ^ 2 / (2 * √(k / (k + f))) ≤ 0 := by
    apply div_nonpos_of_nonpos_of_nonneg
    · apply div_nonpos_of_nonpos_of_nonneg
      · have := mul_pos hk0 hf'0; linarith
      · positivity
    · positivity
  simp only [DM.gm, hrs, hb, breakdown, ne_eq, not_true_eq_false, if_false, mul_zero, add_zero]
  have h5 : -(k * f') / (k + f) ^ 2 / (2 * √(k / (k + f))) * f ≤ 0 :=
    mul_nonpos_of_nonpos_of_nonneg hneg hf0.le
  have h6 : √(k / (k + f)) * f' < f' := by nlinarith
  rw [mul_comm area]
  apply mul_lt_mul_of_pos_right _ ha
  linarith

/-- C42: with a series resistance the current returned lacks the area: it is the current through the
resistance divided by the area. -/
theorem C42_area_refuted (m : DM) (area vext vd : ℝ) (ha : area ≠ 0) (hr : m.IsRoot area vext vd) :
    m.getIrs vext vd = vd / m.RS / area := by
  unfold DM.IsRoot at hr
  unfold DM.getIrs
  rw [eq_div_iff ha]; linarith

/-- C42: with a series resistance there is at most one solution. -/
theorem C42_root_unique (m : DM) (h : m.Ok) (area vext a b : ℝ) (ha : 0 < area) (hrs : 0 < m.RS)
    (h1 : m.IsRoot area vext a) (h2 : m.IsRoot area vext b) : a = b := by
  have key : ∀ a b, a < b → m.IsRoot area vext a → m.IsRoot area vext b → False := by
    intro a b hab h1 h2
    unfold DM.IsRoot at h1 h2
    have g1 := div_lt_div_of_pos_right hab hrs
    have g2 := C42_increasing m h area ha (show vext - b < vext - a by linarith)
    unfold DM.getI at g2
    linarith
  rcases lt_trichotomy a b with h3 | h3 | h3
  · exact (key a b h3 h1 h2).elim
  · exact h3
  · exact (key b a h3 h2 h1).elim

/-- The default model at room temperature. -/
noncomputable def default : DM :=
  { IS := 1 / 10 ^ 14, N := 1, NBV := 1, ISR := 0, NR := 2, RS := 0, BV := none, IKF := none,
    VT := 1 / 40, T := 300, XTI := 3, TBV := 0, TRS := 0 }

example : default.Ok ∧ default.getI 1 0 = 1 / 10 ^ 14 := by
  have h : default.Ok := by constructor <;> norm_num [default]
  refine ⟨h, ?_⟩
  have := (C42_zero_refuted default h 1 one_pos (by simp [default])).2.2 rfl
  rw [this]; simp [default]

example : HasDerivAt (default.getI 2) (default.gm 0 2 (1 / 2)) (1 / 2) :=
  C42_derivative_partial default 0 2 (1 / 2) rfl rfl rfl (by norm_num [default]) (by norm_num [default])

/-! ### C90 -/

/-- C90: saturation current and breakdown voltage after setting a temperature do not depend on
temperatures set before. -/
theorem C90_history_partial (c : ℝ) (m : DM) (t1 t2 : ℝ) (h0 : 0 < m.T) (h1 : 0 < t1) (h2 : 0 < t2)
    (hn : m.N ≠ 0) :
    ((m.setT c t1).setT c t2).IS = (m.setT c t2).IS ∧
    ((m.setT c t1).setT c t2).BV = (m.setT c t2).BV ∧
    ((m.setT c t1).setT c t2).T = (m.setT c t2).T := by
  refine ⟨?_, ?_, rfl⟩
  · simp only [DM.setT]
    have e1 : (t2 / m.T) ^ (m.XTI / m.N) = (t1 / m.T) ^ (m.XTI / m.N) * (t2 / t1) ^ (m.XTI / m.N) := by
      rw [← mul_rpow (div_pos h1 h0).le (div_pos h2 h1).le]
      congr 1
      field_simp
    have e2 : exp (-c / (m.N * t2) * (1 - t2 / m.T)) =
        exp (-c / (m.N * t1) * (1 - t1 / m.T)) * exp (-c / (m.N * t2) * (1 - t2 / t1)) := by
      rw [← exp_add]
      congr 1
      field_simp
      ring
    rw [e1, e2]; ring
  · simp only [DM.setT]
    cases m.BV with
    | none => rfl
    | some b => simp only [Option.map_some]; congr 1; ring

/-- C90: setting the present temperature changes nothing. -/
theorem C90_same (c : ℝ) (m : DM) (h0 : 0 < m.T) : m.setT c m.T = m := by
  have e : m.T / m.T = 1 := div_self h0.ne'
  have hb : (m.BV.map fun b => b - m.TBV * (m.T - m.T)) = m.BV := by
    cases m.BV with
    | none => rfl
    | some b => simp
  unfold DM.setT
  rw [hb]
  simp [e]

/-- C90: the series resistance depends on all temperatures set before, whenever it depends on
temperature at all. -/
theorem C90_rs_refuted (c : ℝ) (m : DM) (t1 t2 : ℝ) (hr : m.RS ≠ 0) (ht : m.TRS ≠ 0)
    (h1 : t1 ≠ m.T) (h2 : t2 ≠ t1) :
    ((m.setT c t1).setT c t2).RS ≠ (m.setT c t2).RS := by
  simp only [DM.setT]
  intro h
  have e : m.RS * (m.TRS * m.TRS * ((t1 - m.T) * (t2 - t1))) = 0 := by linear_combination h
  rcases mul_eq_zero.1 e with e | e
  · exact hr e
  · rcases mul_eq_zero.1 e with e | e
    · rcases mul_eq_zero.1 e with e | e <;> exact ht e
    · rcases mul_eq_zero.1 e with e | e
      · exact h1 (sub_eq_zero.1 e)
      · exact h2 (sub_eq_zero.1 e)

/-- C90: the thermal voltage in the exponents stays that of the temperature at construction. -/
theorem C90_vt_refuted (c : ℝ) (m : DM) (t : ℝ) : (m.setT c t).VT = m.VT := rfl

end Verif.Diode
