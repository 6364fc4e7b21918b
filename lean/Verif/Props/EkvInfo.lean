import Mathlib.Analysis.Complex.ExponentialBounds
import Verif.Model.EkvInfo
import Verif.Props.Ekv
import Verif.Props.Mos

/-!
Properties C162 (operating point information of an EKV transistor belongs to the voltages asked for) and C163 (the
region reported for an EKV transistor).
-/

namespace Verif.Ekv
open Real

/-! ### C162 -/

/-- a conductance reported by the device is never zero, when `gmin` is not -/
theorem g_ne_zero (m : EM) {gmin : ℝ} (hg : gmin ≠ 0) (ism : ℝ → ℝ) (p : ℝ × ℝ × ℝ) (k : Port) :
    m.g gmin ism p k ≠ 0 := by
  unfold EM.g
  simp only
  split_ifs with h1 h2
  · simpa using hg
  · simpa using hg
  · exact h1

theorem inversion_some (a b : ℝ) : ∃ s, inversionOf (wmsi a b) = some s := by
  unfold wmsi
  split_ifs
  · exact ⟨_, rfl⟩
  · exact ⟨_, rfl⟩
  · exact ⟨_, rfl⟩

open Classical in
/-- C162: with the voltages in a list, as the operating point tables pass them, `get_op_info` succeeds after any calls on
the device, and shows the current and the conductances that the solver uses for these voltages. -/
theorem C162_info (m : EM) (cox : ℝ) {gmin : ℝ} (hg : gmin ≠ 0) (ism : ℝ → ℝ) (us : List Use) (p : ℝ × ℝ × ℝ) :
    ∃ t, ((us.foldl (Dict.use m cox gmin ism) Dict.new).opInfo m cox gmin ism ⟨false, p⟩).1 = some t ∧
      t.voltages = p ∧ t.Ids = m.ids ism p.1 p.2.1 p.2.2 ∧ t.gmg = m.g gmin ism p .g ∧ t.gms = m.g gmin ism p .s ∧
      t.rob * m.g gmin ism p .d = 1 ∧ t.VA * m.g gmin ism p .d = t.Ids ∧
      t.TEF = (if t.Ids = 0 then none else some |t.gms * m.Vth / t.Ids|) ∧ t.info = m.info cox ism p ∧
      some t.inversion = inversionOf (m.info cox ism p).WMSI ∧
      t.region = (if (m.info cox ism p).SAT then "SATURATION" else "LINEAR") := by
  generalize us.foldl (Dict.use m cox gmin ism) Dict.new = d
  have hs : ¬ d.same ⟨false, p⟩ := fun h => Bool.false_ne_true h.1
  have hz := g_ne_zero m hg ism p .d
  obtain ⟨s, hw⟩ := inversion_some (m.info cox ism p).ifn (m.info cox ism p).irn
  have hw' : inversionOf (m.info cox ism p).WMSI = some s := hw
  have hu : d.update m cox gmin ism ⟨false, p⟩ = ⟨some (m.stateOf p), some (m.ids ism p.1 p.2.1 p.2.2),
      some (m.g gmin ism p .d), some (m.g gmin ism p .g), some (m.g gmin ism p .s), some (m.info cox ism p)⟩ := by
    unfold Dict.update
    rw [if_pos (Or.inl fun h => hs h.1)]
    rfl
  refine ⟨_, by
    simp only [Dict.opInfo, hu, Dict.table, EM.table, hw', if_neg hz]
    rfl, rfl, rfl, rfl, rfl, ?_, ?_, rfl, rfl, hw'.symm, rfl⟩
  · exact one_div_mul_cancel hz
  · exact div_mul_cancel₀ _ hz

/-- C162: hence two requests with the voltages in lists give the same, whatever was called before them. -/
theorem C162_history (m : EM) (cox gmin : ℝ) (ism : ℝ → ℝ) (us vs : List Use) (p : ℝ × ℝ × ℝ) :
    ((us.foldl (Dict.use m cox gmin ism) Dict.new).opInfo m cox gmin ism ⟨false, p⟩).1 =
    ((vs.foldl (Dict.use m cox gmin ism) Dict.new).opInfo m cox gmin ism ⟨false, p⟩).1 := by
  generalize us.foldl (Dict.use m cox gmin ism) Dict.new = d
  generalize vs.foldl (Dict.use m cox gmin ism) Dict.new = d'
  have hu : ∀ d : Dict, d.update m cox gmin ism ⟨false, p⟩ = ⟨some (m.stateOf p), some (m.ids ism p.1 p.2.1 p.2.2),
      some (m.g gmin ism p .d), some (m.g gmin ism p .g), some (m.g gmin ism p .s), some (m.info cox ism p)⟩ := by
    intro d
    have hs : ¬ d.same ⟨false, p⟩ := fun h => Bool.false_ne_true h.1
    unfold Dict.update
    rw [if_pos (Or.inl fun h => hs h.1)]
    rfl
  simp only [Dict.opInfo, hu]

/-- C162, disagreement: with the voltages in a tuple the information may belong to other voltages. After a request at
`p`, one at the voltages `p` with drain and source in units of the thermal voltage, and the sign of the gate voltage
changed in a p-type device, shows the current and the conductances at `p`. -/
theorem C162_tuple_refuted (m : EM) (cox gmin : ℝ) (ism : ℝ → ℝ) (hn : m.NPMOS = 1 ∨ m.NPMOS = -1) (p : ℝ × ℝ × ℝ)
    (t : Table) (ht : (Dict.new.opInfo m cox gmin ism ⟨true, p⟩).1 = some t) :
    ∃ t', ((Dict.new.use m cox gmin ism (.info ⟨true, p⟩)).opInfo m cox gmin ism
        ⟨true, (p.1 / m.Vth, m.NPMOS * p.2.1, p.2.2 / m.Vth)⟩).1 = some t' ∧
      t'.voltages = (p.1 / m.Vth, m.NPMOS * p.2.1, p.2.2 / m.Vth) ∧ t'.Ids = m.ids ism p.1 p.2.1 p.2.2 ∧
      t'.info = m.info cox ism p := by
  have hst : m.stateOf p = (p.1 / m.Vth, m.NPMOS * p.2.1, p.2.2 / m.Vth) := by
    have hnn : m.NPMOS * m.NPMOS = 1 := by rcases hn with e | e <;> rw [e] <;> norm_num
    have e : ∀ x : ℝ, x * m.NPMOS / m.Vth * m.NPMOS = x / m.Vth := fun x => by
      rw [show x * m.NPMOS / m.Vth * m.NPMOS = x / m.Vth * (m.NPMOS * m.NPMOS) by ring, hnn, mul_one]
    by_cases h : p.2.2 * m.NPMOS > p.1 * m.NPMOS
    · have hv : m.voltages p.1 p.2.1 p.2.2 = ((p.2.2 * m.NPMOS, p.2.1 * m.NPMOS, p.1 * m.NPMOS), -1) := by
        simp only [EM.voltages]; rw [if_pos h]
      simp only [EM.stateOf, hv]
      norm_num [e, mul_comm p.2.1]
    · have hv : m.voltages p.1 p.2.1 p.2.2 = ((p.1 * m.NPMOS, p.2.1 * m.NPMOS, p.2.2 * m.NPMOS), 1) := by
        simp only [EM.voltages]; rw [if_neg h]
      simp only [EM.stateOf, hv]
      norm_num [e, mul_comm p.2.1]
  have hu : Dict.new.update m cox gmin ism ⟨true, p⟩ = ⟨some (m.stateOf p), some (m.ids ism p.1 p.2.1 p.2.2),
      some (m.g gmin ism p .d), some (m.g gmin ism p .g), some (m.g gmin ism p .s), some (m.info cox ism p)⟩ := by
    unfold Dict.update
    rw [if_pos (Or.inl fun h => by simp [Dict.new] at h)]
    rfl
  have hd : Dict.new.use m cox gmin ism (.info ⟨true, p⟩) = ⟨some (m.stateOf p), some (m.ids ism p.1 p.2.1 p.2.2),
      some (m.g gmin ism p .d), some (m.g gmin ism p .g), some (m.g gmin ism p .s), some (m.info cox ism p)⟩ := by
    simp only [Dict.use, Dict.opInfo, hu]
  rw [hd, ← hst]
  have hu2 : Dict.update m cox gmin ism ⟨some (m.stateOf p), some (m.ids ism p.1 p.2.1 p.2.2),
      some (m.g gmin ism p .d), some (m.g gmin ism p .g), some (m.g gmin ism p .s), some (m.info cox ism p)⟩
      ⟨true, m.stateOf p⟩ = ⟨some (m.stateOf p), some (m.ids ism p.1 p.2.1 p.2.2),
      some (m.g gmin ism p .d), some (m.g gmin ism p .g), some (m.g gmin ism p .s), some (m.info cox ism p)⟩ := by
    unfold Dict.update
    rw [if_neg]
    simp [Dict.same]
  simp only [Dict.opInfo, hu, Dict.table, EM.table] at ht
  simp only [Dict.opInfo, hu2, Dict.table, EM.table]
  cases hi : inversionOf (m.info cox ism p).WMSI with
  | none => rw [hi] at ht; simp at ht
  | some s =>
    rw [hi] at ht
    by_cases hz : m.g gmin ism p .d = 0
    · simp [hz] at ht
    · simp [hz]

/-- C162, disagreement: and the entries at the two voltages differ: the overdrive voltages of an n-type device with the
source not at the bulk. -/
theorem C162_tuple_differs (m : EM) (hm : m.Sound) (cox : ℝ) (ism : ℝ → ℝ) (hn : m.NPMOS = 1) (hV : m.Vth ≠ 1)
    (p : ℝ × ℝ × ℝ) (hds : p.2.2 ≤ p.1) (hs : p.2.2 ≠ 0) :
    (m.info cox ism p).VOD ≠ (m.info cox ism (p.1 / m.Vth, m.NPMOS * p.2.1, p.2.2 / m.Vth)).VOD := by
  have hp := hm.vth
  have h1 : m.voltages p.1 p.2.1 p.2.2 = ((p.1, p.2.1, p.2.2), 1) := by
    simp only [EM.voltages, hn, mul_one]; rw [if_neg (not_lt.2 hds)]
  have h2 : m.voltages (p.1 / m.Vth) (m.NPMOS * p.2.1) (p.2.2 / m.Vth) =
      ((p.1 / m.Vth, p.2.1, p.2.2 / m.Vth), 1) := by
    simp only [EM.voltages, hn, mul_one, one_mul]
    rw [if_neg (not_lt.2 (div_le_div_of_nonneg_right hds hp.le))]
  have hnv : 0 < m.nv p.2.1 := by
    unfold EM.nv
    have := hm.gamma
    positivity
  simp only [EM.info, h1, h2]
  rw [hn, one_mul]
  intro h
  have h3 := mul_left_cancel₀ hnv.ne' h
  have h4 : p.2.2 = p.2.2 / m.Vth := by linarith
  rw [eq_div_iff hp.ne'] at h4
  exact hV (mul_left_cancel₀ hs (by linarith))

/-! ### C163 -/

/-- what is reported about the region: inversion level and saturation -/
noncomputable def EM.region (m : EM) (cox : ℝ) (ism : ℝ → ℝ) (p : ℝ × ℝ × ℝ) : Nat × Prop :=
  ((m.info cox ism p).WMSI, (m.info cox ism p).SAT)

theorem voltages_swap (m : EM) (vd vg vs : ℝ) :
    (m.voltages vs vg vd).1 = (m.voltages vd vg vs).1 := by
  simp only [EM.voltages]
  rcases lt_trichotomy (vd * m.NPMOS) (vs * m.NPMOS) with h | h | h
  · rw [if_neg (not_lt.2 h.le), if_pos h]
  · rw [if_neg (not_lt.2 h.le), if_neg (not_lt.2 h.symm.le), h]
  · rw [if_pos h, if_neg (not_lt.2 h.le)]

/-- C163: the region reported does not depend on which end of the channel is called drain. -/
theorem C163_swap (m : EM) (cox : ℝ) (ism : ℝ → ℝ) (vd vg vs : ℝ) :
    m.region cox ism (vs, vg, vd) = m.region cox ism (vd, vg, vs) := by
  simp only [EM.region, EM.info, voltages_swap m vd vg vs]

/-- C163: a p-type device at the opposite voltages is reported in the region of the n-type device. -/
theorem C163_mirror (m : EM) (h : m.NPMOS = 1) (cox : ℝ) (ism : ℝ → ℝ) (vd vg vs : ℝ) :
    ({ m with NPMOS := -1 } : EM).region cox ism (-vd, -vg, -vs) = m.region cox ism (vd, vg, vs) := by
  have hv : ({ m with NPMOS := -1 } : EM).voltages (-vd) (-vg) (-vs) = m.voltages vd vg vs := by
    simp only [EM.voltages, h]
    have e1 : -vd * -1 = vd * 1 := by ring
    have e2 : -vg * -1 = vg * 1 := by ring
    have e3 : -vs * -1 = vs * 1 := by ring
    rw [e1, e2, e3]
  have hn : ∀ v, ({ m with NPMOS := -1 } : EM).norm ism v = m.norm ism v := fun v => rfl
  simp only [EM.region, EM.info, hv, hn]

/-- a device of the n-type with the drain not below the source -/
theorem info_fwd (m : EM) (h : m.NPMOS = 1) (vd vg vs : ℝ) (hv : vs ≤ vd) :
    m.voltages vd vg vs = ((vd, vg, vs), 1) := by
  simp only [EM.voltages, h, mul_one]; rw [if_neg (not_lt.2 hv)]

/-- C163: a device without voltage across its channel is not reported in saturation. -/
theorem C163_zero {m : EM} (hm : m.Sound) (cox : ℝ) {ism : ℝ → ℝ} (hi : ∀ v, 0 < ism v) (v vg : ℝ) :
    ¬ (m.region cox ism (v, vg, v)).2 := by
  have hv : (m.voltages v vg v).1 = (v * m.NPMOS, vg * m.NPMOS, v * m.NPMOS) := by
    simp only [EM.voltages]; rw [if_neg (lt_irrefl _)]
  simp only [EM.region, EM.info, hv, EM.norm]
  rw [leqVirp_equal m _ _ _ hm.vth.ne', not_lt]
  have h1 : (1 : ℝ) ≤ exp 4 := one_le_exp (by norm_num)
  exact le_mul_of_one_le_right (hi _).le h1

/-- the reverse voltage falls when the drain voltage rises -/
theorem virp_anti {m : EM} (h : m.Sound) {vd vd' vs vp ifn : ℝ} (hv : vd ≤ vd') :
    (m.leqVirp vd' vs vp ifn).2 ≤ (m.leqVirp vd vs vp ifn).2 := by
  have hp := h.vth
  simp only [EM.leqVirp]
  set a := m.UCRIT * m.N * m.L * (√(0.25 + m.Vth / (m.UCRIT * m.N * m.L) * (√ifn - 0.75 * log ifn)) - 0.5) +
    m.Vth * (log (0.5 * (m.UCRIT * m.N * m.L) / m.Vth) - 0.6)
  set d := 4 * m.Vth * √(m.LAMBDA * (√ifn - m.UCRIT * m.N * m.L *
    (√(0.25 + m.Vth / (m.UCRIT * m.N * m.L) * √ifn) - 0.5) / m.Vth) + 1 / 64)
  set x := (vd - vs) * 0.5 * m.Vth with hx
  set y := (vd' - vs) * 0.5 * m.Vth with hy
  have hxy : 0 ≤ y - x := by
    have : 0 ≤ (vd' - vd) * 0.5 * m.Vth := by
      have : 0 ≤ vd' - vd := by linarith
      positivity
    rw [hx, hy]
    linarith
  have h1 := sqrt_lip (a - x) d _ hxy
  have e1 : (y - x - (a - x)) ^ 2 = (y - a) ^ 2 := by ring
  have e2 : (a - x) ^ 2 = (x - a) ^ 2 := by ring
  rw [e1, e2] at h1
  exact div_le_div_of_nonneg_right (by linarith) hp.le

/-- C163: an n-type device in saturation stays so when its drain voltage rises. -/
theorem C163_drain {m : EM} (hm : m.Sound) (hn : m.NPMOS = 1) (cox : ℝ) {ism : ℝ → ℝ} (hi : Monotone ism)
    {vd vd' vg vs : ℝ} (h0 : vs ≤ vd) (h1 : vd ≤ vd') (hs : (m.region cox ism (vd, vg, vs)).2) :
    (m.region cox ism (vd', vg, vs)).2 := by
  simp only [EM.region, EM.info, info_fwd m hn _ _ _ h0, EM.norm] at hs
  simp only [EM.region, EM.info, info_fwd m hn _ _ _ (h0.trans h1), EM.norm]
  refine lt_of_le_of_lt ?_ hs
  exact mul_le_mul_of_nonneg_right (hi (virp_anti hm (div_le_div_of_nonneg_right h1 hm.vth.le))) (exp_pos 4).le

/-- the pinch-off voltage rises with the gate voltage, and is not below `-PHI` -/
theorem vp_form (m : EM) (hp : 0 ≤ m.PHI) (vg : ℝ) :
    m.vp vg = if (m.GAMMA / 2) ^ 2 < vg - m.VTO + (√m.PHI + m.GAMMA / 2) ^ 2 ∧
      0 < vg - m.VTO + (√m.PHI + m.GAMMA / 2) ^ 2 then
      (√(vg - m.VTO + (√m.PHI + m.GAMMA / 2) ^ 2) - m.GAMMA / 2) ^ 2 - m.PHI else -m.PHI := by
  have hs : √m.PHI ^ 2 = m.PHI := sq_sqrt hp
  have e : vg - m.VTO + m.PHI + m.GAMMA * √m.PHI > 0 ↔
      (m.GAMMA / 2) ^ 2 < vg - m.VTO + (√m.PHI + m.GAMMA / 2) ^ 2 := by
    constructor <;> intro h <;> nlinarith
  simp only [EM.vp]
  by_cases h : vg - m.VTO + m.PHI + m.GAMMA * √m.PHI > 0 ∧ vg - m.VTO + (√m.PHI + m.GAMMA / 2) ^ 2 > 0
  · rw [if_pos h, if_pos ⟨e.1 h.1, h.2⟩]
    have h2 := sq_sqrt h.2.le
    linear_combination -hs - h2
  · rw [if_neg h, if_neg fun h' => h ⟨e.2 h'.1, h'.2⟩]

theorem vp_mono (m : EM) (hp : 0 ≤ m.PHI) : Monotone m.vp := by
  intro a b hab
  rw [vp_form m hp a, vp_form m hp b]
  set t := (√m.PHI + m.GAMMA / 2) ^ 2
  by_cases ha : (m.GAMMA / 2) ^ 2 < a - m.VTO + t ∧ 0 < a - m.VTO + t
  · rw [if_pos ha, if_pos ⟨by linarith [ha.1], by linarith [ha.2]⟩]
    have h1 : √(a - m.VTO + t) ≤ √(b - m.VTO + t) := sqrt_le_sqrt (by linarith)
    have h2 : m.GAMMA / 2 ≤ √(a - m.VTO + t) := by
      have := abs_le_sqrt ha.1.le
      exact (le_abs_self _).trans this
    nlinarith
  · rw [if_neg ha]
    split_ifs
    · nlinarith [sq_nonneg (√(b - m.VTO + t) - m.GAMMA / 2)]
    · exact le_rfl

theorem wmsi_mono {a b c d : ℝ} (h : max a b ≤ max c d) : wmsi a b ≤ wmsi c d := by
  unfold wmsi
  split_ifs <;> first | omega | linarith

/-- C163: the inversion level reported for an n-type device does not fall when the gate voltage rises or the lower of
the drain and source voltages falls. -/
theorem C163_inversion {m : EM} (hm : m.Sound) (hp : 0 ≤ m.PHI) (hn : m.NPMOS = 1) (cox : ℝ) {ism : ℝ → ℝ}
    (hi : Monotone ism) {vd vg vs vd' vg' vs' : ℝ} (hg : vg ≤ vg') (hs : min vd' vs' ≤ min vd vs) :
    (m.region cox ism (vd, vg, vs)).1 ≤ (m.region cox ism (vd', vg', vs')).1 := by
  have key : ∀ vd vg vs, ∃ w, (m.info cox ism (vd, vg, vs)).WMSI =
      wmsi (ism (m.vp vg / m.Vth - min vd vs / m.Vth)) w ∧ w ≤ ism (m.vp vg / m.Vth - min vd vs / m.Vth) := by
    intro vd vg vs
    have hv : (m.voltages vd vg vs).1 = (max vd vs, vg, min vd vs) := by
      simp only [EM.voltages, hn, mul_one]
      by_cases h : vs > vd
      · rw [if_pos h, max_eq_right h.le, min_eq_left h.le]
      · rw [if_neg h, max_eq_left (not_lt.1 h), min_eq_right (not_lt.1 h)]
    refine ⟨(m.norm ism (max vd vs, vg, min vd vs)).2.1, ?_, ?_⟩
    · simp only [EM.info, hv]; rfl
    · exact hi (virp_le hm (div_le_div_of_nonneg_right (min_le_max) hm.vth.le))
  obtain ⟨w, h1, h2⟩ := key vd vg vs
  obtain ⟨w', h1', h2'⟩ := key vd' vg' vs'
  simp only [EM.region, h1, h1']
  apply wmsi_mono
  rw [max_eq_left h2, max_eq_left h2']
  apply hi
  have h3 := div_le_div_of_nonneg_right (vp_mono m hp hg) hm.vth.le
  have h4 := div_le_div_of_nonneg_right hs hm.vth.le
  linarith

/-- C163: in saturation the current is the forward current up to less than one part in `exp 4`; otherwise it is smaller
by more. -/
theorem C163_current {m : EM} (hm : m.Sound) (cox : ℝ) {ism : ℝ → ℝ} (hi : Monotone ism) (vd vg vs : ℝ) :
    let r := m.info cox ism (vd, vg, vs)
    let forward := m.L / r.Leff * m.M * r.Ispec * r.ifn
    |m.ids ism vd vg vs| = forward - m.L / r.Leff * m.M * r.Ispec * r.irn ∧
    (r.SAT → (1 - exp (-4)) * forward < |m.ids ism vd vg vs|) ∧
    (¬ r.SAT → |m.ids ism vd vg vs| ≤ (1 - exp (-4)) * forward) := by
  have hnp : |m.NPMOS| = 1 := by rcases hm.type with e | e <;> rw [e] <;> norm_num
  have hcs : |(m.voltages vd vg vs).2| = 1 := by
    simp only [EM.voltages]; split_ifs <;> norm_num
  have hle : (m.voltages vd vg vs).1.2.2 ≤ (m.voltages vd vg vs).1.1 := by
    simp only [EM.voltages]
    split_ifs with h
    · exact h.le
    · exact not_lt.1 h
  simp only [EM.info, EM.ids]
  set v := (m.voltages vd vg vs).1 with hv
  have h1 : v.2.2 / m.Vth ≤ v.1 / m.Vth := div_le_div_of_nonneg_right hle hm.vth.le
  have h2 : 0 < (m.norm ism v).2.2 :=
    leq_pos hm (v.1 / m.Vth) (v.2.2 / m.Vth) (m.vp v.2.1) (ism (m.vp v.2.1 / m.Vth - v.2.2 / m.Vth))
  have h3 : (m.norm ism v).2.1 ≤ (m.norm ism v).1 := hi (virp_le hm h1)
  have hk : 0 < m.L / (m.norm ism v).2.2 * m.M * m.spec v.2.1 := by
    have a := hm.l
    have b := hm.many
    have c := hm.spec_pos v.2.1
    positivity
  have e : |(m.voltages vd vg vs).2 * m.NPMOS * m.L / (m.norm ism v).2.2 * m.M * m.spec v.2.1 *
      ((m.norm ism v).1 - (m.norm ism v).2.1)| =
      m.L / (m.norm ism v).2.2 * m.M * m.spec v.2.1 * ((m.norm ism v).1 - (m.norm ism v).2.1) := by
    rw [show (m.voltages vd vg vs).2 * m.NPMOS * m.L / (m.norm ism v).2.2 * m.M * m.spec v.2.1 *
      ((m.norm ism v).1 - (m.norm ism v).2.1) = (m.voltages vd vg vs).2 * m.NPMOS *
      (m.L / (m.norm ism v).2.2 * m.M * m.spec v.2.1 * ((m.norm ism v).1 - (m.norm ism v).2.1)) by ring,
      abs_mul, abs_mul, hnp, hcs, abs_of_nonneg (mul_nonneg hk.le (by linarith))]
    ring
  rw [e]
  set k := m.L / (m.norm ism v).2.2 * m.M * m.spec v.2.1
  set f := (m.norm ism v).1
  set r := (m.norm ism v).2.1
  have h4 : exp (-4) * exp 4 = 1 := by rw [← exp_add]; norm_num
  have h5 : 0 < exp (-4 : ℝ) := exp_pos _
  refine ⟨by linarith [mul_sub k f r], fun hs => ?_, fun hs => ?_⟩
  · have : r < exp (-4) * f := by
      have := mul_lt_mul_of_pos_left hs h5
      have e5 : exp (-4) * (r * exp 4) = r := by linear_combination r * h4
      linarith
    nlinarith
  · have : exp (-4) * f ≤ r := by
      have := mul_le_mul_of_nonneg_left (not_lt.1 hs) h5.le
      have e5 : exp (-4) * (r * exp 4) = r := by linear_combination r * h4
      linarith
    nlinarith

/-- the hypotheses hold for the device of threshold 2 V and exact currents -/
example : ∃ ism, Exact ⟨1 / 10 ^ 16, by positivity⟩ ism ∧ ¬ (exE.region 1 ism (1, 3, 1)).2 ∧
    (exE.region 1 ism (3, 2, 1)).1 ≤ (exE.region 1 ism (1, 3, 0)).1 ∧
    ∃ t, ((([Use.i (3, 2, 1), .g (1, 1, 0) .g] : List Use).foldl (Dict.use exE 1 1 ism) Dict.new).opInfo exE 1 1 ism
      ⟨false, (3, 2, 0)⟩).1 = some t ∧ t.Ids = exE.ids ism 3 2 0 := by
  obtain ⟨ism, h⟩ := exact_exists ⟨1 / 10 ^ 16, by positivity⟩
  refine ⟨ism, h, C163_zero exE_sound 1 h.pos 1 3,
    C163_inversion exE_sound (by norm_num [exE]) rfl 1 h.monotone (by norm_num) (by norm_num), ?_⟩
  obtain ⟨t, h1, -, h2, -⟩ := C162_info exE 1 one_ne_zero ism [Use.i (3, 2, 1), .g (1, 1, 0) .g] (3, 2, 0)
  exact ⟨t, h1, h2⟩

/-- the reverse voltage of the device is below the forward one when the drain is above the source -/
theorem exE_virp {vd vs vp ifn : ℝ} (hv : vs < vd) : (exE.leqVirp vd vs vp ifn).2 < vp - vs := by
  simp only [EM.leqVirp]
  have e1 : exE.Vth = 1 := rfl
  have e2 : exE.LAMBDA = 0 := rfl
  rw [e1, e2]
  set a := exE.UCRIT * exE.N * exE.L * (√(0.25 + 1 / (exE.UCRIT * exE.N * exE.L) * (√ifn - 0.75 * log ifn)) - 0.5) +
    1 * (log (0.5 * (exE.UCRIT * exE.N * exE.L) / 1) - 0.6)
  have e3 : √(0 * (√ifn - exE.UCRIT * exE.N * exE.L * (√(0.25 + 1 / (exE.UCRIT * exE.N * exE.L) * √ifn) - 0.5) / 1) +
      1 / 64) = 1 / 8 := by
    rw [zero_mul, zero_add, show (1 / 64 : ℝ) = (1 / 8) ^ 2 by norm_num, sqrt_sq (by norm_num)]
  rw [e3]
  set x := (vd - vs) * 0.5 * 1 with hx
  have hx0 : 0 < x := by
    have : 0 < vd - vs := by linarith
    rw [hx]; positivity
  set d : ℝ := 4 * 1 * (1 / 8) with hd
  have h1 : |a| < √(a ^ 2 + d ^ 2) := by
    rw [← sqrt_sq_eq_abs]
    exact sqrt_lt_sqrt (sq_nonneg _) (by rw [hd]; norm_num)
  have h2 : √((x - a) ^ 2 + d ^ 2) < x + √(a ^ 2 + d ^ 2) := by
    have h3 : 0 ≤ √(a ^ 2 + d ^ 2) := sqrt_nonneg _
    have h4 : √(a ^ 2 + d ^ 2) ^ 2 = a ^ 2 + d ^ 2 := sq_sqrt (by positivity)
    rw [sqrt_lt' (by linarith)]
    have h5 := mul_lt_mul_of_pos_left ((neg_le_abs a).trans_lt h1) hx0
    nlinarith
  rw [div_one, mul_one]
  linarith

/-- a device in saturation, for a relation of currents to voltages with a step -/
example : ∃ ism : ℝ → ℝ, Monotone ism ∧ (exE.region 1 ism (3, 3, 1)).2 ∧ (exE.region 1 ism (5, 3, 1)).2 := by
  have hm : Monotone fun v : ℝ => if v < exE.vp 3 - 1 then (1 / 100 : ℝ) else 1 := by
    intro a b h
    beta_reduce
    split_ifs with h1 h2
    · exact le_rfl
    · norm_num
    · linarith
    · exact le_rfl
  have key : (exE.region 1 (fun v => if v < exE.vp 3 - 1 then (1 / 100 : ℝ) else 1) (3, 3, 1)).2 := by
    simp only [EM.region, EM.info, info_fwd exE rfl 3 3 1 (by norm_num), EM.norm]
    have e1 : exE.Vth = 1 := rfl
    rw [e1]
    simp only [div_one, lt_irrefl, if_false]
    rw [if_pos (exE_virp (by norm_num))]
    have : exp 4 < 100 := by
      have h1 := Real.exp_one_lt_three
      have h2 : exp 4 = exp 1 ^ 4 := by rw [← exp_nat_mul]; norm_num
      rw [h2]
      calc exp 1 ^ 4 < 3 ^ 4 := by
            apply pow_lt_pow_left₀ (by linarith) (exp_pos 1).le (by norm_num)
        _ < 100 := by norm_num
    linarith
  exact ⟨_, hm, key, C163_drain exE_sound rfl 1 hm (by norm_num) (by norm_num) key⟩

/-- 25 mV: the overdrive voltages differ -/
example (ism : ℝ → ℝ) : (({ exE with Vth := 1 / 40 } : EM).info 1 ism (3, 2, 1)).VOD ≠
    (({ exE with Vth := 1 / 40 } : EM).info 1 ism (120, 2, 40)).VOD := by
  have h := C162_tuple_differs { exE with Vth := 1 / 40 } (by constructor <;> norm_num [exE]) 1 ism rfl (by norm_num)
    (3, 2, 1) (by norm_num) (by norm_num)
  have e : ((3 : ℝ) / (1 / 40), ({ exE with Vth := 1 / 40 } : EM).NPMOS * 2, (1 : ℝ) / (1 / 40)) = (120, 2, 40) := by
    norm_num [exE]
  rw [← e]
  exact h

end Verif.Ekv
