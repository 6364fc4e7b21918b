import Verif.Props.Mosq
import Verif.Props.Ekv
import Verif.Props.Diode

/-!
C151: devices in parallel. C152: transistors take power.
-/

namespace Verif.Mosq
open Real

/-! ### C151, square-law model -/

/-- C151: `k` times as many parallel transistors have `k` times the current and the conductances. -/
theorem C151_mosq_parallel (m : MQ) (k vds vgs vbs : ℝ) :
    ({ m with M := k * m.M } : MQ).drain vds vgs vbs = k * m.drain vds vgs vbs ∧
    ({ m with M := k * m.M } : MQ).source vds vgs vbs = k * m.source vds vgs vbs ∧
    ({ m with M := k * m.M } : MQ).gmd vds vgs vbs = k * m.gmd vds vgs vbs ∧
    ({ m with M := k * m.M } : MQ).gm vds vgs vbs = k * m.gm vds vgs vbs ∧
    ({ m with M := k * m.M } : MQ).gmb vds vgs vbs = k * m.gmb vds vgs vbs := by
  have hv : ({ m with M := k * m.M } : MQ).voltages vds vgs vbs = m.voltages vds vgs vbs := rfl
  have hi : ∀ a b c, ({ m with M := k * m.M } : MQ).ids a b c = k * m.ids a b c := fun a b c => by
    simp only [MQ.ids]
    rw [show ({ m with M := k * m.M } : MQ).ids0 a b c = m.ids0 a b c from rfl]
    ring
  refine ⟨?_, ?_, ?_, ?_, ?_⟩
  · simp only [MQ.drain, hv, hi]; ring
  · simp only [MQ.source, hv, hi]; ring
  · simp only [MQ.gmd]
    rw [show ({ m with M := k * m.M } : MQ).vt = m.vt from rfl]
    ring
  · simp only [MQ.gm]
    rw [show ({ m with M := k * m.M } : MQ).vt = m.vt from rfl, show ({ m with M := k * m.M } : MQ).vsq1 = m.vsq1 from rfl,
      show ({ m with M := k * m.M } : MQ).vsq2 = m.vsq2 from rfl]
    ring
  · simp only [MQ.gmb]
    rw [show ({ m with M := k * m.M } : MQ).vt = m.vt from rfl, show ({ m with M := k * m.M } : MQ).vsq1 = m.vsq1 from rfl,
      show ({ m with M := k * m.M } : MQ).vsq2 = m.vsq2 from rfl]
    ring

/-! ### C152, square-law model -/

/-- the current of a conducting device is not negative -/
theorem on_nonneg (m : MQ) (hb : 0 ≤ m.beta) (hl : 0 ≤ m.LAMBDA) {o x : ℝ} (ho : 0 ≤ o) (hx : 0 ≤ x) : 0 ≤ m.on o x := by
  unfold MQ.on
  refine mul_nonneg hb ?_
  have hs : m.vdsat o ≤ o := by unfold MQ.vdsat; have := mul_nonneg hl (sq_nonneg o); linarith
  rcases le_total (x - m.vdsat o) 0 with h | h
  · rw [max_eq_right h]
    nlinarith
  · rw [max_eq_left h]
    have h1 : 0 ≤ x * (o - m.vdsat o) := mul_nonneg hx (by linarith)
    nlinarith [sq_nonneg (m.vdsat o)]

/-- parameters that `_self_check` and `device_check` accept, with a positive gain -/
structure MQ.Sound (m : MQ) : Prop where
  type : m.NPMOS = 1 ∨ m.NPMOS = -1
  beta : 0 ≤ m.beta
  lambda : 0 ≤ m.LAMBDA
  many : 0 < m.M
  series : 0 < m.N

/-- C152: a conducting square-law transistor takes power: the current into the drain has the sign of the voltage
between drain and source, whichever of the two is higher. -/
theorem C152_mosq_partial (m : MQ) (hm : m.Sound) (vds vgs vbs : ℝ)
    (hon : m.vt (m.voltages vds vgs vbs).1.2.2 ≤ (m.voltages vds vgs vbs).1.2.1) :
    0 ≤ vds * m.drain vds vgs vbs := by
  have h2 : 0 < m.M / m.N := div_pos hm.many hm.series
  by_cases h : vds * m.NPMOS < 0
  · have hv : m.voltages vds vgs vbs = ((-(vds * m.NPMOS), vgs * m.NPMOS - vds * m.NPMOS, vbs * m.NPMOS - vds * m.NPMOS), -1) := by
      simp only [MQ.voltages]; rw [if_pos h]
    rw [hv] at hon
    simp only [MQ.drain, MQ.ids, hv]
    rw [ids0_on m _ _ _ hon]
    have h1 := on_nonneg m hm.beta hm.lambda (o := vgs * m.NPMOS - vds * m.NPMOS - m.vt (vbs * m.NPMOS - vds * m.NPMOS))
      (x := -(vds * m.NPMOS)) (by linarith) (by linarith)
    have e : ∀ w : ℝ, vds * (-1 * (m.NPMOS * m.M / m.N * w)) = -(vds * m.NPMOS) * (m.M / m.N) * w := fun w => by ring
    rw [e]
    exact mul_nonneg (mul_nonneg (by linarith) h2.le) h1
  · have hv : m.voltages vds vgs vbs = ((vds * m.NPMOS, vgs * m.NPMOS, vbs * m.NPMOS), 1) := by
      simp only [MQ.voltages]; rw [if_neg h]
    rw [hv] at hon
    simp only [MQ.drain, MQ.ids, hv]
    rw [ids0_on m _ _ _ hon]
    have h1 := on_nonneg m hm.beta hm.lambda (o := vgs * m.NPMOS - m.vt (vbs * m.NPMOS))
      (x := vds * m.NPMOS) (by linarith) (by linarith)
    have e : ∀ w : ℝ, vds * (1 * (m.NPMOS * m.M / m.N * w)) = vds * m.NPMOS * (m.M / m.N) * w := fun w => by ring
    rw [e]
    exact mul_nonneg (mul_nonneg (by linarith) h2.le) h1

/-- C152, disagreement: a transistor that is off delivers power when its gate is further below the source than its
drain above it. -/
theorem C152_mosq_off_refuted (m : MQ) (hm : m.Sound) (hi : 0 < m.iea) (vds vgs vbs : ℝ) (hn : m.NPMOS = 1)
    (ht : 0 < m.vt vbs) (hd : 0 < vds) (hg : vgs < -vds) : vds * m.drain vds vgs vbs < 0 := by
  have hv : m.voltages vds vgs vbs = ((vds, vgs, vbs), 1) := by
    simp only [MQ.voltages, hn, mul_one]; rw [if_neg (by linarith)]
  simp only [MQ.drain, MQ.ids, hv, hn]
  rw [ids0_off m _ _ _ (by linarith)]
  have h2 : 0 < m.M / m.N := div_pos hm.many hm.series
  have e : vds * (1 * (1 * m.M / m.N * (m.iea * (vgs / m.vt vbs + vds / m.vt vbs) / 100))) =
      (vds * (m.M / m.N) * m.iea / m.vt vbs / 100) * (vgs + vds) := by field_simp
  rw [e]
  exact mul_neg_of_pos_of_neg (by positivity) (by linarith)

theorem exN_sound : exN.Sound := by
  constructor <;> norm_num [exN, MQ.beta]

example : 0 ≤ (-1) * exN.drain (-1) 1 (-1) := by
  refine C152_mosq_partial exN exN_sound (-1) 1 (-1) ?_
  have hv : exN.voltages (-1) 1 (-1) = ((1, 2, 0), -1) := by norm_num [MQ.voltages, exN]
  rw [hv]
  simp only [exN_vt]
  norm_num

example : 1 * exN.drain 1 (-2) 0 < 0 :=
  C152_mosq_off_refuted exN exN_sound (by norm_num [exN]) 1 (-2) 0 rfl (by rw [exN_vt]; norm_num) one_pos (by norm_num)

example : ({ exN with M := 3 } : MQ).drain 1 1 0 = 3 * exN.drain 1 1 0 := by
  have := (C151_mosq_parallel exN 3 1 1 0).1
  simpa [exN] using this

end Verif.Mosq

namespace Verif.Ekv
open Real

/-! ### C151, EKV model -/

/-- C151: the current of `k` times as many parallel EKV transistors is `k` times the current. -/
theorem C151_ekv_current_partial (m : EM) (ism : ℝ → ℝ) (k vd vg vs : ℝ) :
    ({ m with M := k * m.M } : EM).ids ism vd vg vs = k * m.ids ism vd vg vs := by
  simp only [EM.ids]
  rw [show ({ m with M := k * m.M } : EM).voltages vd vg vs = m.voltages vd vg vs from rfl,
    show ({ m with M := k * m.M } : EM).norm ism = m.norm ism from rfl,
    show ({ m with M := k * m.M } : EM).spec = m.spec from rfl]
  ring

/-- parameters in the range the constructors accept -/
structure EM.Sound (m : EM) : Prop where
  type : m.NPMOS = 1 ∨ m.NPMOS = -1
  gamma : 0 ≤ m.GAMMA
  kp : 0 < m.KP
  vth : 0 < m.Vth
  w : 0 < m.W
  l : 0 < m.L
  many : 0 < m.M
  series : 0 < m.N

theorem EM.Sound.nq_pos {m : EM} (h : m.Sound) (vg : ℝ) : 0 < m.nq vg := by
  unfold EM.nq
  have := h.gamma
  positivity

theorem EM.Sound.gspec_pos {m : EM} (h : m.Sound) (vg : ℝ) : 0 < m.gspec vg := by
  have h1 := h.nq_pos vg
  have h2 := h.vth
  have h3 := h.kp
  have h4 := h.w
  have h5 := h.l
  unfold EM.gspec
  positivity

theorem EM.Sound.spec_pos {m : EM} (h : m.Sound) (vg : ℝ) : 0 < m.spec vg := by
  have h1 := h.nq_pos vg
  have h2 := h.vth
  have h3 := h.kp
  have h4 := h.w
  have h5 := h.l
  unfold EM.spec
  positivity

/-- the drain conductance is positive, the source conductance negative -/
theorem ekv_signs {m : EM} (h : m.Sound) {ism : ℝ → ℝ} (hi : ∀ v, 0 < ism v) (vd vg vs : ℝ) :
    0 < m.gmd ism vd vg vs ∧ m.gms ism vd vg vs < 0 := by
  have hq : ∀ v, 0 < i2q (ism v) := fun v => i2q_pos (hi v)
  constructor
  · simp only [EM.gmd, EM.norm]
    split_ifs
    · exact mul_pos (h.gspec_pos _) (hq _)
    · exact mul_pos (h.gspec_pos _) (hq _)
  · simp only [EM.gms, EM.norm]
    split_ifs
    · have := mul_pos (h.gspec_pos (m.voltages vd vg vs).1.2.1) (hq (m.vp (m.voltages vd vg vs).1.2.1 / m.Vth -
        (m.voltages vd vg vs).1.2.2 / m.Vth))
      linarith
    · rw [neg_mul]
      exact neg_neg_of_pos (mul_pos (h.gspec_pos _) (hq _))

/-- C151, disagreement: the conductances of EKV transistors do not depend on how many are in parallel, although the
current does. -/
theorem C151_ekv_conductance_refuted {m : EM} (h : m.Sound) {ism : ℝ → ℝ} (hi : ∀ v, 0 < ism v) (k vd vg vs : ℝ)
    (hk : k ≠ 1) :
    ({ m with M := k * m.M } : EM).gmd ism vd vg vs = m.gmd ism vd vg vs ∧
    ({ m with M := k * m.M } : EM).gmd ism vd vg vs ≠ k * m.gmd ism vd vg vs ∧
    ({ m with M := k * m.M } : EM).gms ism vd vg vs = m.gms ism vd vg vs ∧
    ({ m with M := k * m.M } : EM).gms ism vd vg vs ≠ k * m.gms ism vd vg vs ∧
    ({ m with M := k * m.M } : EM).gmg ism vd vg vs = m.gmg ism vd vg vs := by
  obtain ⟨h1, h2⟩ := ekv_signs h hi vd vg vs
  have key : ∀ g : ℝ, g ≠ 0 → g ≠ k * g := fun g hg e => hk (mul_right_cancel₀ hg (by linarith))
  exact ⟨rfl, key _ h1.ne', rfl, key _ h2.ne, rfl⟩

/-- C151, disagreement: hence they are not the derivatives of the current. If the drain conductance is the derivative
for some number of transistors in parallel, it is not for any other number. -/
theorem C151_ekv_derivative_refuted {m : EM} (h : m.Sound) {ism : ℝ → ℝ} (hi : ∀ v, 0 < ism v) (k vd vg vs : ℝ)
    (hk : k ≠ 1) (hd : HasDerivAt (fun x => m.ids ism x vg vs) (m.gmd ism vd vg vs) vd) :
    ∃ d, HasDerivAt (fun x => ({ m with M := k * m.M } : EM).ids ism x vg vs) d vd ∧
      d ≠ ({ m with M := k * m.M } : EM).gmd ism vd vg vs := by
  refine ⟨k * m.gmd ism vd vg vs, ?_, (C151_ekv_conductance_refuted h hi k vd vg vs hk).2.1.symm⟩
  have : (fun x => ({ m with M := k * m.M } : EM).ids ism x vg vs) = fun x => k * m.ids ism x vg vs := by
    funext x; exact C151_ekv_current_partial m ism k x vg vs
  rw [this]
  exact hd.const_mul k

/-! ### C152, EKV model -/

theorem sqrt_lip (a d v : ℝ) (hv : 0 ≤ v) : √((v - a) ^ 2 + d ^ 2) ≤ v + √(a ^ 2 + d ^ 2) := by
  have h0 : |a| ≤ √(a ^ 2 + d ^ 2) := by
    rw [← sqrt_sq_eq_abs]
    exact sqrt_le_sqrt (by have := sq_nonneg d; linarith)
  have h1 : 0 ≤ √(a ^ 2 + d ^ 2) := sqrt_nonneg _
  rw [sqrt_le_left (by linarith)]
  have h2 : √(a ^ 2 + d ^ 2) ^ 2 = a ^ 2 + d ^ 2 := sq_sqrt (by positivity)
  have h3 := mul_le_mul_of_nonneg_left ((neg_le_abs a).trans h0) hv
  nlinarith

/-- the reverse voltage is not above the forward one -/
theorem virp_le {m : EM} (h : m.Sound) {vd vs vp ifn : ℝ} (hv : vs ≤ vd) :
    (m.leqVirp vd vs vp ifn).2 ≤ vp / m.Vth - vs := by
  have hp := h.vth
  simp only [EM.leqVirp]
  set a := m.UCRIT * m.N * m.L * (√(0.25 + m.Vth / (m.UCRIT * m.N * m.L) * (√ifn - 0.75 * log ifn)) - 0.5) +
    m.Vth * (log (0.5 * (m.UCRIT * m.N * m.L) / m.Vth) - 0.6)
  set d := 4 * m.Vth * √(m.LAMBDA * (√ifn - m.UCRIT * m.N * m.L *
    (√(0.25 + m.Vth / (m.UCRIT * m.N * m.L) * √ifn) - 0.5) / m.Vth) + 1 / 64)
  have hx : 0 ≤ (vd - vs) * 0.5 * m.Vth := by
    have : 0 ≤ vd - vs := by linarith
    positivity
  have := sqrt_lip a d _ hx
  have e : (vp / m.Vth - vs) * m.Vth = vp - vs * m.Vth := by field_simp
  rw [div_le_iff₀ hp, e]
  linarith

theorem leq_pos {m : EM} (h : m.Sound) (vd vs vp ifn : ℝ) : 0 < (m.leqVirp vd vs vp ifn).1 := by
  have h1 : 0 < m.N * m.L / 10 := by have := mul_pos h.series h.l; positivity
  simp only [EM.leqVirp]
  generalize m.N * m.L / 10 = q at h1 ⊢
  generalize m.N * m.L - _ + _ = p
  have : √(p ^ 2) < √(p ^ 2 + q ^ 2) := sqrt_lt_sqrt (sq_nonneg _) (by have := pow_pos h1 2; linarith)
  rw [sqrt_sq_eq_abs] at this
  have := neg_abs_le p
  linarith

/-- C152: an EKV transistor takes power: the current has the sign of the voltage between drain and source. -/
theorem C152_ekv {m : EM} (h : m.Sound) {ism : ℝ → ℝ} (hi : Monotone ism) (vd vg vs : ℝ) :
    0 ≤ (vd - vs) * m.ids ism vd vg vs := by
  have hp := h.vth
  have core : ∀ a b g : ℝ, b ≤ a → 0 ≤ m.L / (m.norm ism (a, g, b)).2.2 * m.M * m.spec g *
      ((m.norm ism (a, g, b)).1 - (m.norm ism (a, g, b)).2.1) := by
    intro a b g hab
    have h1 : b / m.Vth ≤ a / m.Vth := div_le_div_of_nonneg_right hab hp.le
    have h2 : 0 < (m.norm ism (a, g, b)).2.2 :=
      leq_pos h (a / m.Vth) (b / m.Vth) (m.vp g) (ism (m.vp g / m.Vth - b / m.Vth))
    have h3 : (m.norm ism (a, g, b)).2.1 ≤ (m.norm ism (a, g, b)).1 := hi (virp_le h h1)
    have h4 := h.spec_pos g
    have h5 := h.l
    have h6 := h.many
    have h7 : 0 ≤ (m.norm ism (a, g, b)).1 - (m.norm ism (a, g, b)).2.1 := by linarith
    positivity
  have hn : m.NPMOS * m.NPMOS = 1 := by rcases h.type with e | e <;> rw [e] <;> norm_num
  by_cases hs : vs * m.NPMOS > vd * m.NPMOS
  · have hv : m.voltages vd vg vs = ((vs * m.NPMOS, vg * m.NPMOS, vd * m.NPMOS), -1) := by
      simp only [EM.voltages]; rw [if_pos hs]
    have c := core (vs * m.NPMOS) (vd * m.NPMOS) (vg * m.NPMOS) hs.le
    simp only [EM.ids, hv]
    have e : ∀ L' w u : ℝ, (vd - vs) * (-1 * m.NPMOS * m.L / L' * m.M * w * u) =
      (vs * m.NPMOS - vd * m.NPMOS) * (m.L / L' * m.M * w * u) := fun L' w u => by ring
    rw [e]
    exact mul_nonneg (by linarith) c
  · have hv : m.voltages vd vg vs = ((vd * m.NPMOS, vg * m.NPMOS, vs * m.NPMOS), 1) := by
      simp only [EM.voltages]; rw [if_neg hs]
    have c := core (vd * m.NPMOS) (vs * m.NPMOS) (vg * m.NPMOS) (not_lt.1 hs)
    simp only [EM.ids, hv]
    have e : ∀ L' w u : ℝ, (vd - vs) * (1 * m.NPMOS * m.L / L' * m.M * w * u) =
      (vd * m.NPMOS - vs * m.NPMOS) * (m.L / L' * m.M * w * u) := fun L' w u => by ring
    rw [e]
    have := not_lt.1 hs
    exact mul_nonneg (by linarith) c

/-- what `get_ismall` computes when Newton's method finds the positive solution -/
def Exact (e : Eps) (ism : ℝ → ℝ) : Prop := ∀ v, ∃ x, 0 < x ∧ obj v x = 0 ∧ ism v = max x (10 * e.eps)

theorem Exact.monotone {e : Eps} {ism : ℝ → ℝ} (h : Exact e ism) : Monotone ism := by
  intro v w hvw
  obtain ⟨x, hx, ox, ex⟩ := h v
  obtain ⟨y, hy, oy, ey⟩ := h w
  rw [ex, ey]
  refine max_le_max ?_ le_rfl
  by_contra hc
  have := C46_voltage_increasing hy (not_le.1 hc)
  unfold obj at ox oy
  rw [if_pos hx] at ox
  rw [if_pos hy] at oy
  linarith

theorem Exact.pos {e : Eps} {ism : ℝ → ℝ} (h : Exact e ism) (v : ℝ) : 0 < ism v := by
  obtain ⟨x, hx, -, ex⟩ := h v
  rw [ex]
  exact lt_max_of_lt_left hx

theorem exact_exists (e : Eps) : ∃ ism, Exact e ism :=
  ⟨fun v => max (C46_unique_positive v).choose (10 * e.eps), fun v =>
    ⟨_, (C46_unique_positive v).choose_spec.1.1, (C46_unique_positive v).choose_spec.1.2, rfl⟩⟩

theorem exE_sound : exE.Sound := by constructor <;> norm_num [exE]

example : ∃ ism, Exact ⟨1 / 10 ^ 16, by positivity⟩ ism ∧ 0 ≤ (3 - 1) * exE.ids ism 3 2 1 ∧
    ({ exE with M := 2 } : EM).gmd ism 3 2 1 ≠ 2 * exE.gmd ism 3 2 1 := by
  obtain ⟨ism, h⟩ := exact_exists ⟨1 / 10 ^ 16, by positivity⟩
  refine ⟨ism, h, C152_ekv exE_sound h.monotone 3 2 1, ?_⟩
  have := (C151_ekv_conductance_refuted exE_sound h.pos 2 3 2 1 (by norm_num)).2.1
  simpa [exE] using this

end Verif.Ekv

namespace Verif.Diode

/-- C151: a diode of `k` times the area has `k` times the current, when there is no series resistance, and `k` times
the conductance. -/
theorem C151_diode (m : DM) (k gmin area v : ℝ) :
    m.getI (k * area) v = k * m.getI area v ∧ m.gm gmin (k * area) v = k * m.gm gmin area v := by
  constructor
  · simp only [DM.getI]; ring
  · simp only [DM.gm]; ring

example : default.getI 2 (1 / 2) = 2 * default.getI 1 (1 / 2) := by
  have := (C151_diode default 2 0 1 (1 / 2)).1
  simpa using this

end Verif.Diode
