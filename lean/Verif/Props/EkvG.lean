import Verif.Props.EkvInfo
import Mathlib.Analysis.Calculus.Deriv.Inverse
import Mathlib.Topology.Order.MonotoneContinuity
import Mathlib.Analysis.SpecialFunctions.Sqrt
import Mathlib.Analysis.SpecialFunctions.Log.Deriv

/-!
# C165: conductances of EKV transistors

`get_gms`, `get_gmd` and `get_gmg` (ekv.py:672-701) are documented as `d(IDS)/d(VS-VB)`, `d(IDS)/d(VD-VB)` and
`d(IDS)/d(VG-VB)`. Model: `Verif.Model.Ekv`.
-/

namespace Verif.Ekv
open Real Filter Topology

/-- the positive solution of `get_ismall` without the lower limit -/
noncomputable def sol (v : ℝ) : ℝ := (C46_unique_positive v).choose

theorem sol_pos (v : ℝ) : 0 < sol v := (C46_unique_positive v).choose_spec.1.1

theorem vOf_sol (v : ℝ) : vOf (sol v) = v := by
  have h : obj v (sol v) = 0 := (C46_unique_positive v).choose_spec.1.2
  unfold obj at h
  rw [if_pos (sol_pos v)] at h
  exact sub_eq_zero.mp h

theorem sol_vOf {x : ℝ} (hx : 0 < x) : sol (vOf x) = x := by
  have h := (C46_unique_positive (vOf x)).choose_spec.2 x ⟨hx, by unfold obj; rw [if_pos hx, sub_self]⟩
  exact h.symm

theorem sol_mono : StrictMono sol := by
  intro v w h
  by_contra hc
  rcases (not_lt.1 hc).lt_or_eq with h1 | h1
  · have := C46_voltage_increasing (sol_pos w) h1
    rw [vOf_sol, vOf_sol] at this
    linarith
  · have := congrArg vOf h1
    rw [vOf_sol, vOf_sol] at this
    linarith

theorem sol_continuous (v : ℝ) : ContinuousAt sol v := by
  refine continuousAt_of_monotoneOn_of_image_mem_nhds (s := Set.univ) (sol_mono.monotone.monotoneOn _) univ_mem ?_
  have : sol '' Set.univ = Set.Ioi 0 := by
    ext x
    constructor
    · rintro ⟨w, -, rfl⟩; exact sol_pos w
    · intro hx; exact ⟨vOf x, trivial, sol_vOf hx⟩
  rw [this]
  exact Ioi_mem_nhds (sol_pos v)

theorem sol_deriv (v : ℝ) : HasDerivAt sol (i2q (sol v)) v := by
  have h := HasDerivAt.of_local_left_inverse (sol_continuous v) (C46_dvdi (sol v) (sol_pos v))
    (one_div_ne_zero (i2q_pos (sol_pos v)).ne') (Eventually.of_forall vOf_sol)
  rwa [one_div, inv_inv] at h

theorem Exact.eq {e : Eps} {ism : ℝ → ℝ} (h : Exact e ism) (v : ℝ) : ism v = max (sol v) (10 * e.eps) := by
  obtain ⟨x, hx, ox, ex⟩ := h v
  have : x = sol v := (C46_unique_positive v).choose_spec.2 x ⟨hx, ox⟩
  rw [ex, this]

/-- C165: the derivative of the normalised current is the normalised charge, above the lower limit of the currents -/
theorem C165_charge {e : Eps} {ism : ℝ → ℝ} (h : Exact e ism) {v : ℝ} (hv : 10 * e.eps < ism v) :
    HasDerivAt ism (i2q (ism v)) v := by
  have hs : 10 * e.eps < sol v := by
    rw [h.eq v] at hv
    exact (lt_max_iff.1 hv).resolve_right (lt_irrefl _)
  have hev : ism =ᶠ[𝓝 v] sol := by
    filter_upwards [(sol_continuous v).eventually (Ioi_mem_nhds hs)] with w hw
    rw [h.eq w, max_eq_left (le_of_lt hw)]
  rw [h.eq v, max_eq_left hs.le]
  exact (sol_deriv v).congr_of_eventuallyEq hev

/-- C165 fails at the lower limit: the current is constant there, the charge is not zero. -/
theorem C165_limit_refuted {e : Eps} {ism : ℝ → ℝ} (h : Exact e ism) :
    ∃ v, HasDerivAt ism 0 v ∧ 0 < i2q (ism v) := by
  have hp : 0 < 10 * e.eps := by have := e.pos; positivity
  refine ⟨vOf (5 * e.eps), ?_, i2q_pos (h.pos _)⟩
  have hs : sol (vOf (5 * e.eps)) < 10 * e.eps := by rw [sol_vOf (by linarith)]; linarith
  have hev : ism =ᶠ[𝓝 (vOf (5 * e.eps))] fun _ => 10 * e.eps := by
    filter_upwards [(sol_continuous _).eventually (Iio_mem_nhds hs)] with w hw
    rw [h.eq w, max_eq_right (le_of_lt hw)]
  exact (hasDerivAt_const _ _).congr_of_eventuallyEq hev

/-- C165: the pinch-off voltage rises with the gate voltage by `1/nv`, where `nv` is the slope factor without the
`1e-12` that keeps its denominator positive. -/
theorem C165_pinch_off (m : EM) (hp : 0 ≤ m.PHI) (hg : 0 ≤ m.GAMMA) (vg : ℝ)
    (h : 0 < vg - m.VTO + m.PHI + m.GAMMA * √m.PHI) :
    HasDerivAt m.vp (1 / (1 + 0.5 * m.GAMMA / √(m.PHI + m.vp vg))) vg := by
  have hs : √m.PHI ^ 2 = m.PHI := sq_sqrt hp
  set t := √m.PHI + m.GAMMA / 2 with ht
  have key : ∀ x : ℝ, x - m.VTO + t ^ 2 = (x - m.VTO + m.PHI + m.GAMMA * √m.PHI) + (m.GAMMA / 2) ^ 2 := by
    intro x; rw [ht]; linear_combination hs
  have hu : (m.GAMMA / 2) ^ 2 < vg - m.VTO + t ^ 2 := by rw [key]; linarith
  have h0 : 0 < vg - m.VTO + t ^ 2 := lt_of_le_of_lt (sq_nonneg _) hu
  have hev : m.vp =ᶠ[𝓝 vg] fun x => x - m.VTO - m.GAMMA * (√(x - m.VTO + t ^ 2) - t) := by
    have hc : ContinuousAt (fun x : ℝ => x - m.VTO + m.PHI + m.GAMMA * √m.PHI) vg := by fun_prop
    filter_upwards [hc.eventually (Ioi_mem_nhds h)] with x hx
    have hx' : 0 < x - m.VTO + m.PHI + m.GAMMA * √m.PHI := hx
    have : x - m.VTO + t ^ 2 > 0 := by rw [key]; have := sq_nonneg (m.GAMMA / 2); linarith
    simp only [EM.vp]
    rw [if_pos ⟨hx', this⟩]
  have hr : m.GAMMA / 2 < √(vg - m.VTO + t ^ 2) := by
    rw [← sqrt_sq (show (0 : ℝ) ≤ m.GAMMA / 2 by linarith)]
    exact sqrt_lt_sqrt (sq_nonneg _) hu
  have hq : √(vg - m.VTO + t ^ 2) ^ 2 = vg - m.VTO + t ^ 2 := sq_sqrt h0.le
  have hvp : m.PHI + m.vp vg = (√(vg - m.VTO + t ^ 2) - m.GAMMA / 2) ^ 2 := by
    have := hev.self_of_nhds
    rw [this]
    have e := key vg
    rw [ht] at hq ⊢
    rw [ht] at e
    nlinarith
  have hd : HasDerivAt (fun x => x - m.VTO - m.GAMMA * (√(x - m.VTO + t ^ 2) - t))
      (1 - m.GAMMA * (1 / (2 * √(vg - m.VTO + t ^ 2)))) vg := by
    have h1 : HasDerivAt (fun x : ℝ => x - m.VTO + t ^ 2) 1 vg := ((hasDerivAt_id vg).sub_const _).add_const _
    have h2 := h1.sqrt h0.ne'
    exact ((hasDerivAt_id vg).sub_const _).sub ((h2.sub_const t).const_mul m.GAMMA)
  have hv : 1 / (1 + 0.5 * m.GAMMA / √(m.PHI + m.vp vg)) = 1 - m.GAMMA * (1 / (2 * √(vg - m.VTO + t ^ 2))) := by
    rw [hvp, sqrt_sq (by linarith)]
    generalize √(vg - m.VTO + t ^ 2) = r at hr
    have a : r - m.GAMMA / 2 ≠ 0 := by linarith
    have b : r ≠ 0 := by linarith
    have c : 1 + 0.5 * m.GAMMA / (r - m.GAMMA / 2) = r / (r - m.GAMMA / 2) := by
      rw [eq_div_iff a, add_mul, div_mul_cancel₀ _ a]; ring
    rw [c, one_div_div, eq_sub_iff_add_eq, div_add' _ _ _ b, div_eq_one_iff_eq b]
    field_simp
    ring
  rw [hv]
  exact hd.congr_of_eventuallyEq hev

/-- C165: the slope factor `nq` of the specific current is that of the pinch-off voltage where it has half its value. -/
theorem C165_slope (m : EM) (hp : 0 ≤ m.PHI) (hg : 0 ≤ m.GAMMA) {vg vh : ℝ} (h : 0 < vh - m.VTO + m.PHI + m.GAMMA * √m.PHI)
    (hv : m.vp vh = m.vp vg / 2) : HasDerivAt m.vp (1 / m.nq vg) vh := by
  have := C165_pinch_off m hp hg vh h
  rw [hv] at this
  refine this.congr_deriv ?_
  rw [EM.nq, show (0.5 : ℝ) * m.vp vg = m.vp vg / 2 by ring]

/-- there is such a gate voltage if the pinch-off voltage is not negative: the threshold for half the pinch-off voltage -/
theorem C165_slope_exists (m : EM) (hp : 0 < m.PHI) (hg : 0 ≤ m.GAMMA) {vg : ℝ} (hv : 0 ≤ m.vp vg) :
    HasDerivAt m.vp (1 / m.nq vg) (m.VTO + m.vp vg / 2 + m.GAMMA * (√(m.PHI + m.vp vg / 2) - √m.PHI)) := by
  set u := m.vp vg / 2 with hu
  have h0 : 0 ≤ u := by rw [hu]; linarith
  have hm : √m.PHI ≤ √(m.PHI + u) := sqrt_le_sqrt (by linarith)
  have h1 : 0 ≤ m.GAMMA * (√(m.PHI + u) - √m.PHI) := mul_nonneg hg (by linarith)
  have h2 : 0 ≤ m.GAMMA * √m.PHI := mul_nonneg hg (sqrt_nonneg _)
  have hpos : 0 < m.VTO + u + m.GAMMA * (√(m.PHI + u) - √m.PHI) - m.VTO + m.PHI + m.GAMMA * √m.PHI := by linarith
  refine C165_slope m hp.le hg hpos ?_
  have hs : √m.PHI ^ 2 = m.PHI := sq_sqrt hp.le
  have hs' : √(m.PHI + u) ^ 2 = m.PHI + u := sq_sqrt (by linarith)
  have e1 : m.VTO + u + m.GAMMA * (√(m.PHI + u) - √m.PHI) - m.VTO + (√m.PHI + m.GAMMA / 2) ^ 2 = (√(m.PHI + u) + m.GAMMA / 2) ^ 2 := by
    nlinarith
  have hq : 0 < √(m.PHI + u) + m.GAMMA / 2 := by have := sqrt_pos.2 (show 0 < m.PHI + u by linarith); linarith
  simp only [EM.vp] at hu ⊢
  rw [if_pos ⟨hpos, by rw [e1]; positivity⟩, e1, sqrt_sq hq.le, ← hu]
  ring

/-- the forward current of `get_ids`, without the change of the length and without the number of devices:
`Is*ifn` for the source (or drain) voltage `v` -/
noncomputable def EM.forward (m : EM) (ism : ℝ → ℝ) (vg v : ℝ) : ℝ := m.spec vg * ism (m.vp vg / m.Vth - v / m.Vth)

theorem forward_deriv {m : EM} (hm : m.Sound) {e : Eps} {ism : ℝ → ℝ} (h : Exact e ism) (vg v : ℝ)
    (hv : 10 * e.eps < ism (m.vp vg / m.Vth - v / m.Vth)) :
    HasDerivAt (m.forward ism vg) (-m.gspec vg * i2q (ism (m.vp vg / m.Vth - v / m.Vth))) v := by
  have h1 : HasDerivAt (fun x : ℝ => m.vp vg / m.Vth - x / m.Vth) (-(1 / m.Vth)) v := by
    simpa using ((hasDerivAt_id v).div_const m.Vth).const_sub (m.vp vg / m.Vth)
  have h2 := ((C165_charge h hv).comp v h1).const_mul (m.spec vg)
  have e1 : m.spec vg * (i2q (ism (m.vp vg / m.Vth - v / m.Vth)) * -(1 / m.Vth)) =
      -m.gspec vg * i2q (ism (m.vp vg / m.Vth - v / m.Vth)) := by
    have := hm.vth.ne'
    simp only [EM.spec, EM.gspec]
    field_simp
  rw [e1] at h2
  exact h2

/-- C165: with the drain above the source, `gms` is the derivative of the forward current of one device with respect to the source voltage.
Missing: the reverse current and the equivalent length depend on the source voltage too, and the number of
devices is left out of the conductance (`C165_parallel_refuted`). -/
theorem C165_source_partial {m : EM} (hm : m.Sound) (ht : m.NPMOS = 1) {e : Eps} {ism : ℝ → ℝ} (h : Exact e ism)
    (vd vg vs : ℝ) (hd : vs ≤ vd) (hv : 10 * e.eps < ism (m.vp vg / m.Vth - vs / m.Vth)) :
    HasDerivAt (m.forward ism vg) (m.gms ism vd vg vs) vs := by
  have hr : m.voltages vd vg vs = ((vd, vg, vs), 1) := by
    simp only [EM.voltages, ht, mul_one]; rw [if_neg (not_lt.2 hd)]
  have : m.gms ism vd vg vs = -m.gspec vg * i2q (ism (m.vp vg / m.Vth - vs / m.Vth)) := by
    simp only [EM.gms, hr, EM.norm, if_true]; ring
  rw [this]
  exact forward_deriv hm h vg vs hv

/-- C165 with the source above the drain: then `gmd` is minus the derivative of the forward current, with respect to the drain voltage,
and the current is minus the forward current. -/
theorem C165_drain_partial {m : EM} (hm : m.Sound) (ht : m.NPMOS = 1) {e : Eps} {ism : ℝ → ℝ} (h : Exact e ism)
    (vd vg vs : ℝ) (hd : vd < vs) (hv : 10 * e.eps < ism (m.vp vg / m.Vth - vd / m.Vth)) :
    HasDerivAt (fun v => -m.forward ism vg v) (m.gmd ism vd vg vs) vd := by
  have hr : m.voltages vd vg vs = ((vs, vg, vd), -1) := by
    simp only [EM.voltages, ht, mul_one]; rw [if_pos hd]
  have : m.gmd ism vd vg vs = -(-m.gspec vg * i2q (ism (m.vp vg / m.Vth - vd / m.Vth))) := by
    simp only [EM.gmd, hr, EM.norm]
    rw [if_neg (by norm_num)]; ring
  rw [this]
  exact (forward_deriv hm h vg vd hv).neg

/-- C165: the derivative of the forward current with respect to the gate voltage, at a constant specific current, is
`Gs*qf/nv`, the forward part of `gmg` but for the `1e-12` in `nv`.
Missing: the dependence of the specific current on the gate voltage (it enters through `nq`) is left out of `gmg`. -/
theorem C165_gate_partial {m : EM} (hm : m.Sound) (hp : 0 ≤ m.PHI) {e : Eps} {ism : ℝ → ℝ} (h : Exact e ism)
    (vg vs : ℝ) (hg : 0 < vg - m.VTO + m.PHI + m.GAMMA * √m.PHI)
    (hv : 10 * e.eps < ism (m.vp vg / m.Vth - vs / m.Vth)) :
    HasDerivAt (fun x => m.spec vg * ism (m.vp x / m.Vth - vs / m.Vth))
      (m.gspec vg * i2q (ism (m.vp vg / m.Vth - vs / m.Vth)) / (1 + 0.5 * m.GAMMA / √(m.PHI + m.vp vg))) vg := by
  have h1 := ((C165_pinch_off m hp hm.gamma vg hg).div_const m.Vth).sub_const (vs / m.Vth)
  refine (((C165_charge h hv).comp vg h1).const_mul (m.spec vg)).congr_deriv ?_
  have e : m.spec vg = m.gspec vg * m.Vth := by simp only [EM.spec, EM.gspec]; ring
  rw [e]
  generalize 1 + 0.5 * m.GAMMA / √(m.PHI + m.vp vg) = y
  have := hm.vth.ne'
  field_simp

/-- C165: raising source, drain and pinch-off voltage together changes nothing: what `gmg` says about the pinch-off
voltage and the two other conductances add up to zero, whichever terminal is the source. -/
theorem C165_sum (m : EM) (ism : ℝ → ℝ) (vd vg vs : ℝ) (hn : m.nv vg ≠ 0) :
    m.gms ism vd vg vs + m.gmd ism vd vg vs + m.nv vg * m.gmg ism vd vg vs = 0 := by
  simp only [EM.gms, EM.gmd, EM.gmg]
  rw [mul_div_cancel₀ _ hn]
  by_cases h : vs * m.NPMOS > vd * m.NPMOS
  · have e : (m.voltages vd vg vs).2 = -1 := by simp only [EM.voltages, if_pos h]
    rw [e, if_neg (by norm_num), if_neg (by norm_num)]
    ring
  · have e : (m.voltages vd vg vs).2 = 1 := by simp only [EM.voltages, if_neg h]
    rw [e, if_pos rfl, if_pos rfl]
    ring

/-- the slope factor is at least one -/
theorem nv_ne_zero (m : EM) (hg : 0 ≤ m.GAMMA) (vg : ℝ) : m.nv vg ≠ 0 := by
  have : 0 ≤ 0.5 * m.GAMMA / √(m.PHI + m.vp vg + 1 / 10 ^ 12) := by positivity
  unfold EM.nv
  linarith

/-- `get_leq_virp` for small voltages between drain and source: the equivalent length is continuous and above `N*L`,
and the reverse voltage falls more slowly than the drain voltage rises. -/
theorem leqVirp_zero {m : EM} (hm : m.Sound) (hl : 0 ≤ m.LAMBDA) (hu : 0 < m.UCRIT) (s vp ifn : ℝ) :
    ContinuousAt (fun x => (m.leqVirp x s vp ifn).1) s ∧ m.N * m.L < (m.leqVirp s s vp ifn).1 ∧
    ∃ c, -1 < c ∧ c < 1 ∧ HasDerivAt (fun x => (m.leqVirp x s vp ifn).2) (-(1 + c) / 2) s := by
  have hT := hm.vth
  have hc : 0 < m.UCRIT * m.N * m.L := mul_pos (mul_pos hu hm.series) hm.l
  have hnl : 0 < m.N * m.L := mul_pos hm.series hm.l
  have hser : 0 ≤ √ifn - m.UCRIT * m.N * m.L * (√(0.25 + m.Vth / (m.UCRIT * m.N * m.L) * √ifn) - 0.5) / m.Vth := by
    generalize m.UCRIT * m.N * m.L = vc at hc
    have h1 : √(0.25 + m.Vth / vc * √ifn) ≤ 0.5 + m.Vth / vc * √ifn := by
      have hp : 0 ≤ m.Vth / vc * √ifn := by positivity
      rw [sqrt_le_left (by linarith)]
      nlinarith
    have h2 : vc * (√(0.25 + m.Vth / vc * √ifn) - 0.5) / m.Vth ≤ vc * (m.Vth / vc * √ifn) / m.Vth := by
      gcongr; linarith
    have h3 : vc * (m.Vth / vc * √ifn) / m.Vth = √ifn := by field_simp
    linarith
  have hdv : 0 < 4 * m.Vth * √(m.LAMBDA * (√ifn - m.UCRIT * m.N * m.L *
      (√(0.25 + m.Vth / (m.UCRIT * m.N * m.L) * √ifn) - 0.5) / m.Vth) + 1 / 64) := by
    have := mul_nonneg hl hser
    positivity
  simp only [EM.leqVirp]
  generalize 4 * m.Vth * √(m.LAMBDA * (√ifn - m.UCRIT * m.N * m.L *
      (√(0.25 + m.Vth / (m.UCRIT * m.N * m.L) * √ifn) - 0.5) / m.Vth) + 1 / 64) = d at hdv
  generalize m.UCRIT * m.N * m.L * (√(0.25 + m.Vth / (m.UCRIT * m.N * m.L) * √ifn) - 0.5) = b
  generalize m.UCRIT * m.N * m.L * (√(0.25 + m.Vth / (m.UCRIT * m.N * m.L) * (√ifn - 0.75 * log ifn)) - 0.5) +
    m.Vth * (log (0.5 * (m.UCRIT * m.N * m.L) / m.Vth) - 0.6) = a
  generalize m.N * m.L = nl at hnl
  refine ⟨?_, ?_, ?_⟩
  · have hlog : 1 + ((s - s) * 0.5 * m.Vth - (√(b ^ 2 + d ^ 2) - √(((s - s) * 0.5 * m.Vth - b) ^ 2 + d ^ 2))) /
        (m.Lc * m.UCRIT) ≠ 0 := by
      simp
    have hcl : ContinuousAt (fun x => log (1 + ((x - s) * 0.5 * m.Vth - (√(b ^ 2 + d ^ 2) -
        √(((x - s) * 0.5 * m.Vth - b) ^ 2 + d ^ 2))) / (m.Lc * m.UCRIT))) s := by
      refine ContinuousAt.log ?_ hlog
      fun_prop
    fun_prop
  · have e : nl - m.LAMBDA * m.Lc * log (1 + ((s - s) * 0.5 * m.Vth - (√(b ^ 2 + d ^ 2) -
        √(((s - s) * 0.5 * m.Vth - b) ^ 2 + d ^ 2))) / (m.Lc * m.UCRIT)) +
        ((s - s) * 0.5 * m.Vth + (√(b ^ 2 + d ^ 2) - √(((s - s) * 0.5 * m.Vth - b) ^ 2 + d ^ 2))) / m.UCRIT = nl := by
      simp
    rw [e]
    have : nl < √(nl ^ 2 + (nl / 10) ^ 2) := by
      rw [lt_sqrt hnl.le]
      have : 0 < (nl / 10) ^ 2 := by positivity
      linarith
    linarith
  · have hr : 0 < √(a ^ 2 + d ^ 2) := sqrt_pos.2 (by positivity)
    have ha : |a| < √(a ^ 2 + d ^ 2) := by
      rw [← sqrt_sq_eq_abs]
      exact sqrt_lt_sqrt (sq_nonneg _) (by have := pow_pos hdv 2; linarith)
    obtain ⟨ha1, ha2⟩ := abs_lt.1 ha
    refine ⟨a / √(a ^ 2 + d ^ 2), ?_, ?_, ?_⟩
    · rw [lt_div_iff₀ hr]; linarith
    · rw [div_lt_one hr]; exact ha2
    · have h1 : HasDerivAt (fun x : ℝ => (x - s) * 0.5 * m.Vth) (0.5 * m.Vth) s := by
        simpa using (((hasDerivAt_id s).sub_const s).mul_const 0.5).mul_const m.Vth
      have h2 : HasDerivAt (fun x : ℝ => ((x - s) * 0.5 * m.Vth - a) ^ 2 + d ^ 2) (2 * (-a) * (0.5 * m.Vth)) s := by
        refine (((h1.sub_const a).pow 2).add_const (d ^ 2)).congr_deriv ?_
        simp
      have h3 := h2.sqrt (by simp; positivity)
      have h4 := ((((h1.const_sub vp).sub_const (s * m.Vth)).sub_const (√(a ^ 2 + d ^ 2))).add h3).div_const m.Vth
      refine h4.congr_deriv ?_
      have e : ((s - s) * 0.5 * m.Vth - a) ^ 2 + d ^ 2 = a ^ 2 + d ^ 2 := by ring
      rw [e]
      have := hr.ne'
      field_simp
      ring

/-- the derivative of a product at a zero of one factor -/
theorem deriv_mul_zero {f g : ℝ → ℝ} {g' a : ℝ} (hf : ContinuousAt f a) (hg : HasDerivAt g g' a) (h0 : g a = 0) :
    HasDerivAt (fun x => f x * g x) (f a * g') a := by
  rw [hasDerivAt_iff_tendsto_slope] at hg ⊢
  have : slope (fun x => f x * g x) a = fun x => f x * slope g a x := by
    funext x
    simp only [slope, h0, mul_zero, vsub_eq_sub, sub_zero, smul_eq_mul]
    ring
  rw [this]
  exact (hf.tendsto.mono_left nhdsWithin_le_nhds).mul hg

/-- C165: the derivative of the drain current with respect to the drain voltage where drain and source have the same
voltage lies strictly between 0 and `M/N` times the conductance `gmd`. -/
theorem C165_zero_bias {m : EM} (hm : m.Sound) (ht : m.NPMOS = 1) (hl : 0 ≤ m.LAMBDA) (hu : 0 < m.UCRIT)
    {e : Eps} {ism : ℝ → ℝ} (h : Exact e ism) (vg v : ℝ) (hv : 10 * e.eps < ism (m.vp vg / m.Vth - v / m.Vth)) :
    ∃ g, HasDerivWithinAt (fun vd => m.ids ism vd vg v) g (Set.Ici v) v ∧ 0 < g ∧
      g < m.M / m.N * m.gmd ism v vg v := by
  have hT := hm.vth
  set ifn := ism (m.vp vg / m.Vth - v / m.Vth) with hifn
  obtain ⟨hF, hF0, c, c1, c2, hG⟩ := leqVirp_zero hm hl hu (v / m.Vth) (m.vp vg) ifn
  have hF1 := leq_pos hm (v / m.Vth) (v / m.Vth) (m.vp vg) ifn
  have hq := i2q_pos (h.pos (m.vp vg / m.Vth - v / m.Vth))
  have hgs := hm.gspec_pos vg
  have hnl : 0 < m.N * m.L := mul_pos hm.series hm.l
  have hdiv : HasDerivAt (fun x : ℝ => x / m.Vth) (1 / m.Vth) v := (hasDerivAt_id v).div_const _
  have hG' : HasDerivAt (fun x => ism (m.leqVirp (x / m.Vth) (v / m.Vth) (m.vp vg) ifn).2)
      (i2q ifn * (-(1 + c) / 2 * (1 / m.Vth))) v := by
    have h1 := HasDerivAt.comp v hG hdiv
    have h2 : HasDerivAt ism (i2q ifn) (m.leqVirp (v / m.Vth) (v / m.Vth) (m.vp vg) ifn).2 := by
      rw [leqVirp_equal m _ _ _ hT.ne']
      exact C165_charge h hv
    exact HasDerivAt.comp v h2 h1
  have hids : ∀ x ∈ Set.Ici v, m.ids ism x vg v =
      m.L / (m.leqVirp (x / m.Vth) (v / m.Vth) (m.vp vg) ifn).1 * m.M * m.spec vg *
        (ifn - ism (m.leqVirp (x / m.Vth) (v / m.Vth) (m.vp vg) ifn).2) := by
    intro x hx
    have hr : m.voltages x vg v = ((x, vg, v), 1) := by
      simp only [EM.voltages, ht, mul_one]; rw [if_neg (not_lt.2 hx)]
    simp only [EM.ids, hr, EM.norm, ht, one_mul]
    rw [← hifn]
  have hF' : ContinuousAt (fun x => m.L / (m.leqVirp (x / m.Vth) (v / m.Vth) (m.vp vg) ifn).1 * m.M * m.spec vg) v := by
    have h1 : ContinuousAt (fun x => (m.leqVirp (x / m.Vth) (v / m.Vth) (m.vp vg) ifn).1) v :=
      ContinuousAt.comp (f := fun x : ℝ => x / m.Vth) (g := fun x => (m.leqVirp x (v / m.Vth) (m.vp vg) ifn).1) hF
        hdiv.continuousAt
    exact ((continuousAt_const.div h1 hF1.ne').mul continuousAt_const).mul continuousAt_const
  have hd := deriv_mul_zero hF' (hG'.const_sub ifn) (by rw [leqVirp_equal m _ _ _ hT.ne', ← hifn, sub_self])
  have hgmd : m.gmd ism v vg v = m.gspec vg * i2q ifn := by
    have hr : m.voltages v vg v = ((v, vg, v), 1) := by
      simp only [EM.voltages, ht, mul_one]; rw [if_neg (lt_irrefl _)]
    simp only [EM.gmd, hr, EM.norm, if_true]
    rw [leqVirp_equal m _ _ _ hT.ne', ← hifn]
  have hval : m.L / (m.leqVirp (v / m.Vth) (v / m.Vth) (m.vp vg) ifn).1 * m.M * m.spec vg *
      -(i2q ifn * (-(1 + c) / 2 * (1 / m.Vth))) =
      m.M * (m.gspec vg * i2q ifn) * (m.L / (m.leqVirp (v / m.Vth) (v / m.Vth) (m.vp vg) ifn).1 * ((1 + c) / 2)) := by
    have : m.spec vg = m.gspec vg * m.Vth := by simp only [EM.spec, EM.gspec]; ring
    rw [this]
    have := hT.ne'
    have := hF1.ne'
    field_simp
  rw [hval] at hd
  refine ⟨_, hd.hasDerivWithinAt.congr hids (hids v Set.self_mem_Ici), ?_, ?_⟩
  · have := hm.many
    have := hm.l
    have : 0 < 1 + c := by linarith
    positivity
  · rw [hgmd]
    have h1 : m.L / (m.leqVirp (v / m.Vth) (v / m.Vth) (m.vp vg) ifn).1 * ((1 + c) / 2) < 1 / m.N := by
      have a1 : m.L / (m.leqVirp (v / m.Vth) (v / m.Vth) (m.vp vg) ifn).1 < 1 / m.N := by
        rw [div_lt_div_iff₀ hF1 hm.series]; linarith
      have a2 : 0 < m.L / (m.leqVirp (v / m.Vth) (v / m.Vth) (m.vp vg) ifn).1 := div_pos hm.l hF1
      nlinarith
    have h2 : 0 < m.M * (m.gspec vg * i2q ifn) := mul_pos hm.many (mul_pos hgs hq)
    calc _ < m.M * (m.gspec vg * i2q ifn) * (1 / m.N) := mul_lt_mul_of_pos_left h1 h2
      _ = _ := by ring

/-- C165 refuted: for every n-type transistor with as many devices in series as in parallel, at every gate voltage, `gmd` is not the
derivative of the current where drain and source have the same voltage. -/
theorem C165_drain_refuted {m : EM} (hm : m.Sound) (ht : m.NPMOS = 1) (hl : 0 ≤ m.LAMBDA) (hu : 0 < m.UCRIT)
    (hmn : m.M = m.N) {e : Eps} {ism : ℝ → ℝ} (h : Exact e ism) (vg v : ℝ)
    (hv : 10 * e.eps < ism (m.vp vg / m.Vth - v / m.Vth)) :
    ¬ HasDerivAt (fun vd => m.ids ism vd vg v) (m.gmd ism v vg v) v := by
  intro hc
  obtain ⟨g, h1, -, h2⟩ := C165_zero_bias hm ht hl hu h vg v hv
  have := (uniqueDiffWithinAt_Ici v).eq_deriv _ h1 hc.hasDerivWithinAt
  rw [hmn, div_self hm.series.ne', one_mul] at h2
  linarith

/-- C165 refuted for devices in parallel: the conductance with respect to the source voltage cannot be the derivative of the current for both one transistor and two
of them. -/
theorem C165_parallel_refuted {m : EM} (hm : m.Sound) {ism : ℝ → ℝ} (hi : ∀ v, 0 < ism v) (vd vg vs : ℝ) :
    ¬ (HasDerivAt (fun x => m.ids ism vd vg x) (m.gms ism vd vg vs) vs ∧
      HasDerivAt (fun x => ({ m with M := 2 * m.M } : EM).ids ism vd vg x)
        (({ m with M := 2 * m.M } : EM).gms ism vd vg vs) vs) := by
  rintro ⟨h1, h2⟩
  have e : (fun x => ({ m with M := 2 * m.M } : EM).ids ism vd vg x) = fun x => 2 * m.ids ism vd vg x := by
    funext x; exact C151_ekv_current_partial m ism 2 vd vg x
  rw [e] at h2
  exact (C151_ekv_conductance_refuted hm hi 2 vd vg vs (by norm_num)).2.2.2.1 (h2.unique (h1.const_mul 2))

/-- above the lower limit of the currents for every gate voltage of at least the threshold voltage -/
theorem above {e : Eps} (he : 10 * e.eps ≤ 1 / 10) {ism : ℝ → ℝ} (h : Exact e ism) {x : ℝ} (hx : 0 ≤ x) :
    10 * e.eps < ism x := by
  rw [h.eq x]
  refine lt_max_of_lt_left (lt_of_le_of_lt he ?_)
  by_contra hc
  have h1 : i2q (sol x) ≤ 1 / 10 := by
    have := C46_inverse_current (sol x) (sol_pos x).le
    have hp := i2q_pos (sol_pos x)
    unfold q2i at this
    nlinarith [not_lt.1 hc]
  have h2 := vOf_sol x
  rw [vOf_eq (sol_pos x)] at h2
  have h3 := log_le_sub_one_of_pos (i2q_pos (sol_pos x))
  linarith

/-- a transistor with a gate voltage of 2 V: the conditions of the theorems hold -/
example : ∃ ism, Exact ⟨1 / 10 ^ 16, by positivity⟩ ism ∧
    (∃ g, HasDerivWithinAt (fun vd => exE.ids ism vd 2 0) g (Set.Ici 0) 0 ∧ 0 < g ∧ g < exE.M / exE.N * exE.gmd ism 0 2 0) ∧
    HasDerivAt (exE.forward ism 2) (exE.gms ism 1 2 0) 0 ∧
    HasDerivAt (fun v => -exE.forward ism 2 v) (exE.gmd ism (-1) 2 0) (-1) ∧
    HasDerivAt (fun x => exE.spec 2 * ism (exE.vp x / exE.Vth - 0 / exE.Vth)) (exE.gspec 2 *
      i2q (ism (exE.vp 2 / exE.Vth - 0 / exE.Vth)) / (1 + 0.5 * exE.GAMMA / √(exE.PHI + exE.vp 2))) 2 := by
  obtain ⟨ism, h⟩ := exact_exists ⟨1 / 10 ^ 16, by positivity⟩
  have hvp : exE.vp 2 = 0 := by
    have h1 : 2 - exE.VTO + exE.PHI + exE.GAMMA * √exE.PHI > 0 ∧ 2 - exE.VTO + (√exE.PHI + exE.GAMMA / 2) ^ 2 > 0 := by
      norm_num [exE]
    simp only [EM.vp]
    rw [if_pos h1, show (2 : ℝ) - exE.VTO = 0 by norm_num [exE], zero_add, sqrt_sq (by norm_num [exE]), sub_self, mul_zero,
      sub_zero]
  have hx : ∀ v : ℝ, v ≤ 0 → 10 * (1 / 10 ^ 16 : ℝ) < ism (exE.vp 2 / exE.Vth - v / exE.Vth) := fun v hv =>
    above (e := ⟨1 / 10 ^ 16, by positivity⟩) (by norm_num) h (by rw [hvp]; simp only [exE]; linarith)
  exact ⟨ism, h, C165_zero_bias exE_sound rfl (by norm_num [exE]) (by norm_num [exE]) h 2 0 (hx 0 le_rfl),
    C165_source_partial exE_sound rfl h 1 2 0 (by norm_num) (hx 0 le_rfl),
    C165_drain_partial exE_sound rfl h (-1) 2 0 (by norm_num) (hx (-1) (by norm_num)),
    C165_gate_partial exE_sound (by norm_num [exE]) h 2 0 (by norm_num [exE]) (hx 0 le_rfl)⟩

/-- C162: the conductances that are shown are the derivatives of `C165`, unless these are zero; they add up to zero,
too. -/
theorem C162_conductances (m : EM) (gmin : ℝ) (ism : ℝ → ℝ) (p : ℝ × ℝ × ℝ) (hd : m.gmd ism p.1 p.2.1 p.2.2 ≠ 0)
    (hg : m.gmg ism p.1 p.2.1 p.2.2 ≠ 0) (hs : m.gms ism p.1 p.2.1 p.2.2 ≠ 0) :
    m.g gmin ism p .d = m.gmd ism p.1 p.2.1 p.2.2 ∧ m.g gmin ism p .g = m.gmg ism p.1 p.2.1 p.2.2 ∧
      m.g gmin ism p .s = m.gms ism p.1 p.2.1 p.2.2 ∧
      (m.nv p.2.1 ≠ 0 → m.g gmin ism p .s + m.g gmin ism p .d + m.nv p.2.1 * m.g gmin ism p .g = 0) := by
  have e1 : m.g gmin ism p .d = m.gmd ism p.1 p.2.1 p.2.2 := if_neg hd
  have e2 : m.g gmin ism p .g = m.gmg ism p.1 p.2.1 p.2.2 := if_neg hg
  have e3 : m.g gmin ism p .s = m.gms ism p.1 p.2.1 p.2.2 := if_neg hs
  refine ⟨e1, e2, e3, fun hn => ?_⟩
  rw [e1, e2, e3]
  exact C165_sum m ism _ _ _ hn

/-- C162: the charges that are shown belong to the currents and the slope factor that are shown, and the overdrive
voltage to the slope and the pinch-off voltage. -/
theorem C162_entries (m : EM) (cox : ℝ) (ism : ℝ → ℝ) (p : ℝ × ℝ × ℝ) :
    (m.info cox ism p).qf = i2q (m.info cox ism p).ifn * (2 * (m.info cox ism p).nq * m.Vth * cox) ∧
    (m.info cox ism p).qr = i2q (m.info cox ism p).irn * (2 * (m.info cox ism p).nq * m.Vth * cox) ∧
    (m.info cox ism p).beta * (m.info cox ism p).Leff = (if (m.info cox ism p).Leff = 0 then 0 else m.KP * m.W / 2) := by
  refine ⟨rfl, rfl, ?_⟩
  split_ifs with h
  · rw [h, mul_zero]
  · change 0.5 * m.KP * m.W / (m.info cox ism p).Leff * (m.info cox ism p).Leff = _
    rw [div_mul_cancel₀ _ h]
    ring

/-- C162, disagreement: the information for voltages in a tuple may come from calls of the solver at other voltages. -/
theorem C162_calls_refuted (m : EM) (cox : ℝ) {gmin : ℝ} (hg : gmin ≠ 0) (ism : ℝ → ℝ) (p : ℝ × ℝ × ℝ) :
    ∃ t, ((([Use.g p .d, .g p .g, .g p .s] : List Use).foldl (Dict.use m cox gmin ism) Dict.new).opInfo m cox gmin ism
        ⟨true, m.stateOf p⟩).1 = some t ∧ t.voltages = m.stateOf p ∧ t.Ids = m.ids ism p.1 p.2.1 p.2.2 ∧
      t.gmg = m.g gmin ism p .g ∧ t.gms = m.g gmin ism p .s ∧ t.info = m.info cox ism p := by
  have hz := g_ne_zero m hg ism p .d
  obtain ⟨s, hw⟩ := inversion_some (m.info cox ism p).ifn (m.info cox ism p).irn
  have hw' : inversionOf (m.info cox ism p).WMSI = some s := hw
  have hu : Dict.update m cox gmin ism (([Use.g p .d, .g p .g, .g p .s] : List Use).foldl (Dict.use m cox gmin ism) Dict.new)
      ⟨true, m.stateOf p⟩ = ⟨some (m.stateOf p), some (m.ids ism p.1 p.2.1 p.2.2),
      some (m.g gmin ism p .d), some (m.g gmin ism p .g), some (m.g gmin ism p .s), some (m.info cox ism p)⟩ := by
    unfold Dict.update
    rw [if_neg]
    · rfl
    · simp [Dict.same, Dict.use, Dict.g, Dict.eval]
  refine ⟨_, by
    simp only [Dict.opInfo, hu, Dict.table, EM.table, hw', if_neg hz]
    rfl, rfl, rfl, rfl, rfl, rfl⟩

/-- C162: as long as one of the conductances has not been computed, the information belongs to the voltages asked for. -/
theorem C162_incomplete (m : EM) (cox : ℝ) {gmin : ℝ} (hg : gmin ≠ 0) (ism : ℝ → ℝ) (us : List Use) (k : Port)
    (hk : ∀ u ∈ us, (∃ p, u = .i p) ∨ ∃ p j, u = .g p j ∧ j ≠ k) (q : Ports) :
    ∃ t, ((us.foldl (Dict.use m cox gmin ism) Dict.new).opInfo m cox gmin ism q).1 = some t ∧
      t.voltages = q.v ∧ t.Ids = m.ids ism q.v.1 q.v.2.1 q.v.2.2 ∧ t.gmg = m.g gmin ism q.v .g ∧
      t.gms = m.g gmin ism q.v .s ∧ t.info = m.info cox ism q.v := by
  have key : ∀ (us : List Use) (d : Dict), (∀ u ∈ us, (∃ p, u = .i p) ∨ ∃ p j, u = .g p j ∧ j ≠ k) →
      (match k with | .d => d.gmd | .g => d.gmg | .s => d.gms) = none →
      (match k with
        | .d => (us.foldl (Dict.use m cox gmin ism) d).gmd
        | .g => (us.foldl (Dict.use m cox gmin ism) d).gmg
        | .s => (us.foldl (Dict.use m cox gmin ism) d).gms) = none := by
    intro us
    induction us with
    | nil => exact fun d _ h => h
    | cons u us ih =>
      intro d hu hd
      refine ih _ (fun w hw => hu w (List.mem_cons_of_mem _ hw)) ?_
      rcases hu u (List.mem_cons_self ..) with ⟨p, rfl⟩ | ⟨p, j, rfl, hj⟩
      · cases k <;> exact hd
      · cases k <;> cases j <;> first | exact absurd rfl hj | exact hd
  have hn := key us Dict.new hk (by cases k <;> rfl)
  generalize us.foldl (Dict.use m cox gmin ism) Dict.new = d at hn
  have hz := g_ne_zero m hg ism q.v .d
  obtain ⟨s, hw⟩ := inversion_some (m.info cox ism q.v).ifn (m.info cox ism q.v).irn
  have hw' : inversionOf (m.info cox ism q.v).WMSI = some s := hw
  have hu : d.update m cox gmin ism q = ⟨some (m.stateOf q.v), some (m.ids ism q.v.1 q.v.2.1 q.v.2.2),
      some (m.g gmin ism q.v .d), some (m.g gmin ism q.v .g), some (m.g gmin ism q.v .s), some (m.info cox ism q.v)⟩ := by
    unfold Dict.update
    rw [if_pos]
    · rfl
    · cases k <;> simp only at hn <;> simp [hn]
  exact ⟨_, by
    simp only [Dict.opInfo, hu, Dict.table, EM.table, hw', if_neg hz]
    rfl, rfl, rfl, rfl, rfl, rfl⟩

example (ism : ℝ → ℝ) : ∃ t, ((([Use.g (3, 2, 1) .d, .i (1, 1, 0), .g (3, 2, 1) .s] : List Use).foldl (Dict.use exE 1 1 ism)
    Dict.new).opInfo exE 1 1 ism ⟨true, exE.stateOf (3, 2, 1)⟩).1 = some t ∧ t.voltages = exE.stateOf (3, 2, 1) := by
  obtain ⟨t, h1, h2, -⟩ := C162_incomplete exE 1 one_ne_zero ism [Use.g (3, 2, 1) .d, .i (1, 1, 0), .g (3, 2, 1) .s] .g
    (by simp) ⟨true, exE.stateOf (3, 2, 1)⟩
  exact ⟨t, h1, h2⟩

end Verif.Ekv
