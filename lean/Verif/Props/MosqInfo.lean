import Verif.Model.MosqInfo
import Verif.Props.Mos

/-!
Properties C155 (the region reported for a square-law transistor is that of its current) and C156 (the information
reported belongs to the voltages asked for).
-/

namespace Verif.Mosq
open Real

/-! ### C155 -/

/-- the current through a device that is off, conducts in the ohmic region, or in saturation -/
noncomputable def offCurrent (m : MQ) (vds vgs vbs : ℝ) : ℝ :=
  m.M / m.N * (m.iea * (vgs / m.vt vbs + vds / m.vt vbs) / 100)
noncomputable def ohmicCurrent (m : MQ) (vds vgs vbs : ℝ) : ℝ :=
  m.M / m.N * ((m.skp + 1) * m.KP * m.W / m.L * ((vgs - m.vt vbs) * vds - vds ^ 2 / 2))
noncomputable def satCurrent (m : MQ) (vds vgs vbs : ℝ) : ℝ :=
  m.M / m.N * ((m.skp + 1) * m.KP * m.W / m.L / 2 * (vgs - m.vt vbs) ^ 2 *
    (1 + m.LAMBDA * (vds - (vgs - m.vt vbs) + m.LAMBDA / 4 * (vgs - m.vt vbs) ^ 2)))

/-- C155: an n-type device with the drain not below the source. Reported OFF: the current is that of a device that is
off; reported ON and SATURATION: that of saturation; reported ON and LINEAR: that of the ohmic region, when there is no
channel length modulation or the drain voltage is below the corrected limit. Missing: the strip between the two limits,
p-type devices, and drain below source (refuted below). -/
theorem C155_region_partial (m : MQ) (hn : m.NPMOS = 1) (hl : 0 ≤ m.LAMBDA) (vds vgs vbs : ℝ) (hv : 0 ≤ vds) :
    let r := m.restOf (vds, vgs, vbs)
    r.Ids = m.drain vds vgs vbs ∧ r.VOD = vgs - r.VTH ∧
    (¬ r.ON → m.drain vds vgs vbs = offCurrent m vds vgs vbs) ∧
    (r.ON → r.SAT → m.drain vds vgs vbs = satCurrent m vds vgs vbs) ∧
    (r.ON → ¬ r.SAT → (m.LAMBDA = 0 ∨ vds ≤ vgs - m.vt vbs - m.LAMBDA / 2 * (vgs - m.vt vbs) ^ 2) →
      m.drain vds vgs vbs = ohmicCurrent m vds vgs vbs) := by
  have hd : m.drain vds vgs vbs = m.M / m.N * m.ids0 vds vgs vbs := by
    rw [drain_fwd m vds vgs vbs (by rw [hn]; linarith), hn]
    simp
  simp only [MQ.restOf, hn, one_mul, ge_iff_le, gt_iff_lt, not_le, not_lt, true_and]
  refine ⟨fun h => ?_, fun h hs => ?_, fun h hs hx => ?_⟩
  · rw [hd, ids0_off m _ _ _ h]; rfl
  · rw [hd, ids0_on m _ _ _ h]
    simp only [MQ.on, MQ.vdsat, MQ.beta, satCurrent]
    rw [max_eq_left (by nlinarith [mul_nonneg hl (sq_nonneg (vgs - m.vt vbs))])]
    ring
  · rw [hd, ids0_on m _ _ _ h]
    simp only [MQ.on, MQ.vdsat, MQ.beta, ohmicCurrent]
    rw [max_eq_right (by
      rcases hx with hx | hx
      · rw [hx]; linarith
      · linarith)]
    ring

/-- C155: with channel length modulation there is a strip of drain voltages where the device is reported LINEAR, but its
current is that of saturation, and larger than that of the ohmic region. -/
theorem C155_linear_refuted (m : MQ) (hn : m.NPMOS = 1) (vds vgs vbs : ℝ) (hv : 0 ≤ vds) (hb : 0 < m.beta)
    (hm : 0 < m.M / m.N) (hon : m.vt vbs ≤ vgs)
    (h1 : vgs - m.vt vbs - m.LAMBDA / 2 * (vgs - m.vt vbs) ^ 2 < vds) (h2 : vds ≤ vgs - m.vt vbs) :
    (m.restOf (vds, vgs, vbs)).ON ∧ ¬ (m.restOf (vds, vgs, vbs)).SAT ∧
      m.drain vds vgs vbs = satCurrent m vds vgs vbs ∧ ohmicCurrent m vds vgs vbs < m.drain vds vgs vbs := by
  have hd : m.drain vds vgs vbs = m.M / m.N * m.ids0 vds vgs vbs := by
    rw [drain_fwd m vds vgs vbs (by rw [hn]; linarith), hn]
    simp
  refine ⟨hon, not_lt.2 h2, ?_, ?_⟩
  · rw [hd, ids0_on m _ _ _ hon]
    simp only [MQ.on, MQ.vdsat, MQ.beta, satCurrent]
    rw [max_eq_left (by linarith)]
    ring
  · rw [hd, ids0_on m _ _ _ hon]
    simp only [MQ.on, MQ.vdsat, ohmicCurrent]
    rw [max_eq_left (by linarith)]
    refine mul_lt_mul_of_pos_left ?_ hm
    change m.beta * _ < _
    refine mul_lt_mul_of_pos_left ?_ hb
    have : 0 < vds - (vgs - m.vt vbs - 0.5 * m.LAMBDA * (vgs - m.vt vbs) ^ 2) := by linarith
    nlinarith [sq_pos_of_pos this]

/-- the current of a conducting device is positive -/
theorem on_pos (m : MQ) (hb : 0 < m.beta) (hl : 0 ≤ m.LAMBDA) {o x : ℝ} (ho : 0 < o) (hx : 0 < x)
    (hlo : m.LAMBDA * o ≤ 2) : 0 < m.on o x := by
  unfold MQ.on
  refine mul_pos hb ?_
  have hs : m.vdsat o ≤ o := by unfold MQ.vdsat; have := mul_nonneg hl (sq_nonneg o); linarith
  have hs0 : 0 ≤ m.vdsat o := by unfold MQ.vdsat; nlinarith
  rcases le_or_gt (x - m.vdsat o) 0 with h | h
  · rw [max_eq_right h]
    nlinarith [mul_pos hx hx, mul_nonneg hx.le (by linarith : (0:ℝ) ≤ m.vdsat o - x)]
  · rw [max_eq_left h.le]
    rcases hs0.eq_or_lt with h0 | h0
    · rw [← h0]; nlinarith [mul_pos hx ho]
    · nlinarith [mul_nonneg hx.le (by linarith : (0:ℝ) ≤ o - m.vdsat o), mul_pos h0 h0]

/-- C155: a p-type device that conducts is reported OFF: its voltages, which are negative, are compared with the
positive threshold of the mirrored device. -/
theorem C155_p_refuted (m : MQ) (hn : m.NPMOS = -1) (hl : 0 ≤ m.LAMBDA) (hb : 0 < m.beta) (hm : 0 < m.M / m.N)
    (vds vgs vbs : ℝ) (hv : vds < 0) (hon : m.vt (-vbs) < -vgs) (hlo : m.LAMBDA * (-vgs - m.vt (-vbs)) ≤ 2)
    (hneg : vgs < m.vt vbs) :
    ¬ (m.restOf (vds, vgs, vbs)).ON ∧ m.drain vds vgs vbs < 0 := by
  refine ⟨not_le.2 hneg, ?_⟩
  rw [drain_fwd m vds vgs vbs (by rw [hn]; linarith), hn]
  have e : ∀ x : ℝ, x * (-1) = -x := fun x => by ring
  rw [e, e, e, ids0_on m _ _ _ hon.le]
  have := on_pos m hb hl (o := -vgs - m.vt (-vbs)) (x := -vds) (by linarith) (by linarith) hlo
  have e2 : -1 * m.M / m.N = -(m.M / m.N) := by ring
  rw [e2]
  nlinarith [mul_pos hm this]

/-- C155: an n-type device that conducts from source to drain is reported OFF when its gate is not above the source
terminal by the threshold. -/
theorem C155_swapped_refuted (m : MQ) (hn : m.NPMOS = 1) (hl : 0 ≤ m.LAMBDA) (hb : 0 < m.beta) (hm : 0 < m.M / m.N)
    (vds vgs vbs : ℝ) (hv : vds < 0) (hon : m.vt (vbs - vds) < vgs - vds)
    (hlo : m.LAMBDA * (vgs - vds - m.vt (vbs - vds)) ≤ 2) (hneg : vgs < m.vt vbs) :
    ¬ (m.restOf (vds, vgs, vbs)).ON ∧ m.drain vds vgs vbs < 0 := by
  refine ⟨not_le.2 hneg, ?_⟩
  have hd : m.drain vds vgs vbs = -(m.M / m.N * m.ids0 (-vds) (vgs - vds) (vbs - vds)) := by
    simp only [MQ.drain, MQ.voltages, MQ.ids, hn, mul_one]
    rw [if_pos hv]
    simp
  rw [hd, ids0_on m _ _ _ hon.le]
  have := on_pos m hb hl (o := vgs - vds - m.vt (vbs - vds)) (x := -vds) (by linarith) (by linarith) hlo
  nlinarith [mul_pos hm this]

/-- default device, 1 V at the gate, 2 V at the drain: ON and SATURATION -/
example : (exN.restOf (2, 1, 0)).ON ∧ (exN.restOf (2, 1, 0)).SAT := by
  simp only [MQ.restOf, exN_vt]; norm_num

/-- the strip: threshold 1/2, LAMBDA 1/2, gate 1 V: between 0.4375 V and 0.5 V -/
example : exN.drain (1 / 2) 1 0 = satCurrent exN (1 / 2) 1 0 :=
  (C155_linear_refuted exN rfl (1 / 2) 1 0 (by norm_num) (by norm_num [MQ.beta, exN]) (by norm_num [exN])
    (by rw [exN_vt]; norm_num) (by rw [exN_vt]; norm_num [exN]) (by rw [exN_vt]; norm_num)).2.2.1

/-- the p-type device at -2 V between drain and source, -1 V between gate and source -/
example : ¬ (exP.restOf (-2, -1, 0)).ON ∧ exP.drain (-2) (-1) 0 < 0 :=
  C155_p_refuted exP rfl (by norm_num [exP, exN]) (by norm_num [MQ.beta, exP, exN]) (by norm_num [exP, exN]) (-2) (-1) 0
    (by norm_num) (by rw [neg_zero, exP_vt]; norm_num) (by rw [neg_zero, exP_vt]; norm_num [exP, exN])
    (by rw [exP_vt]; norm_num)

/-- drain 1 V below source and bulk at the drain -/
example : ¬ (exN.restOf (-1, 0, -1)).ON ∧ exN.drain (-1) 0 (-1) < 0 := by
  refine C155_swapped_refuted exN rfl (by norm_num [exN]) (by norm_num [MQ.beta, exN]) (by norm_num [exN]) (-1) 0 (-1)
    (by norm_num) ?_ ?_ ?_
  · rw [show (-1 : ℝ) - -1 = 0 by norm_num, exN_vt]; norm_num
  · rw [show (-1 : ℝ) - -1 = 0 by norm_num, exN_vt]; norm_num [exN]
  · have h1 : √exN.vsq2 ≤ √(exN.vsq1 (-1)) := by
      apply Real.sqrt_le_sqrt
      simp only [MQ.vsq1, MQ.vsq2]
      exact max_le_max_right _ (by norm_num)
    have h2 : exN.VTO + exN.svt = 1 / 2 := by norm_num [exN]
    have h3 : exN.GAMMA = 1 := rfl
    simp only [MQ.vt]
    rw [h2, h3]
    linarith

/-! ### C156 -/

/-- the entries for these voltages: the conductances of the drain with respect to drain, gate and bulk, and the others -/
def Status.Fresh (m : MQ) (gmin : ℝ) (s : Status) (p : ℝ × ℝ × ℝ) : Prop :=
  s.g = some (m.gstamp gmin p.1 p.2.1 p.2.2 .d .d, m.gstamp gmin p.1 p.2.1 p.2.2 .d .g, m.gstamp gmin p.1 p.2.1 p.2.2 .d .b) ∧ s.rest = some (m.restOf p)

/-- a triple is kept only when its numbers are equal -/
def Status.Inv (s : Status) : Prop := ∀ a b c, s.seen = .three a b c → a = b ∧ b = c

theorem inv_gstamp (m : MQ) (gmin : ℝ) (s : Status) (p : ℝ × ℝ × ℝ) : (s.gstamp m gmin p).Inv := by
  intro a b c h
  simp only [Status.gstamp] at h
  split_ifs at h with hd
  · rw [h] at hd
    simp only [Seen.differs, not_or, not_not] at hd
    exact ⟨hd.1.trans hd.2.1.symm, hd.2.1.trans hd.2.2.symm⟩

theorem inv_update (m : MQ) (gmin : ℝ) (s : Status) (hs : s.Inv) (p : ℝ × ℝ × ℝ) : (s.update m gmin p).Inv := by
  unfold Status.update
  split_ifs
  · intro a b c h
    exact inv_gstamp m gmin _ p a b c h
  · exact hs

/-- C156: after any evaluations and requests, the information given for voltages that are not all three equal is that
of these voltages. Missing: three equal voltages (refuted below). -/
theorem C156_fresh_partial (m : MQ) (gmin : ℝ) (us : List Use) (p : ℝ × ℝ × ℝ) (hp : ¬ (p.1 = p.2.1 ∧ p.2.1 = p.2.2)) :
    ((us.foldl (Status.use m gmin) Status.new).update m gmin p).Fresh m gmin p := by
  have hinv : ∀ (us : List Use) (s : Status), s.Inv → (us.foldl (Status.use m gmin) s).Inv := by
    intro us
    induction us with
    | nil => intro s h; exact h
    | cons u us ih =>
      intro s h
      refine ih _ ?_
      cases u with
      | solve q => exact inv_gstamp m gmin s q
      | info q => exact inv_update m gmin s h q
  have hi := hinv us Status.new (by intro a b c h; cases h)
  set s := us.foldl (Status.use m gmin) Status.new
  have hns : ¬ s.seen.same p := by
    intro h
    cases hsn : s.seen with
    | nan => rw [hsn] at h; exact h
    | one v => rw [hsn] at h; exact hp ⟨h.1.symm.trans h.2.1, h.2.1.symm.trans h.2.2⟩
    | three a b c =>
      rw [hsn] at h
      obtain ⟨e1, e2⟩ := hi a b c hsn
      exact hp ⟨by rw [← h.1, ← h.2.1, e1], by rw [← h.2.1, ← h.2.2, e2]⟩
  unfold Status.update
  rw [if_pos (.inl hns)]
  exact ⟨rfl, rfl⟩

/-- C156: a new device gives the information asked for, for all voltages. -/
theorem C156_first (m : MQ) (gmin : ℝ) (p : ℝ × ℝ × ℝ) : (Status.new.update m gmin p).Fresh m gmin p := by
  unfold Status.update
  rw [if_pos (.inl (fun h => h))]
  exact ⟨rfl, rfl⟩

/-- C156: information for three equal voltages may be that of other voltages asked for before: `gstamp` keeps only the
first of the voltages. -/
theorem C156_stale_refuted (m : MQ) (gmin v vgs vbs : ℝ) (h : ¬ (v = vgs ∧ vgs = vbs)) :
    ((Status.new.update m gmin (v, vgs, vbs)).update m gmin (v, v, v)).rest = some (m.restOf (v, vgs, vbs)) ∧
    ((Status.new.update m gmin (v, vgs, vbs)).update m gmin (v, v, v)).g = some (m.gOf gmin (v, vgs, vbs)) := by
  have h1 : Status.new.update m gmin (v, vgs, vbs) =
      ⟨.one v, some (m.gOf gmin (v, vgs, vbs)), some (m.restOf (v, vgs, vbs))⟩ := by
    unfold Status.update
    rw [if_pos (.inl (fun h => h))]
    simp only [Status.gstamp]
    rw [if_pos]
    change v ≠ v ∨ vgs ≠ v ∨ vbs ≠ v
    by_contra hc
    simp only [not_or, not_not] at hc
    exact h ⟨hc.2.1.symm, hc.2.1.trans hc.2.2.symm⟩
  rw [h1]
  unfold Status.update
  rw [if_neg (by
    rintro (h | h | h)
    · exact h ⟨rfl, rfl, rfl⟩
    · simp at h
    · simp at h)]
  exact ⟨rfl, rfl⟩

/-- and these differ: at 1 V between drain and source, with 2 V at the gate, then with 1 V at gate and bulk -/
example : (exN.restOf (1, 2, 0)).VOD ≠ (exN.restOf (1, 1, 1)).VOD := by
  simp only [MQ.restOf, exN_vt]
  have h5 : exN.NPMOS = 1 := rfl
  have h2 : exN.VTO + exN.svt = 1 / 2 := by norm_num [exN]
  have h3 : exN.GAMMA = 1 := rfl
  have h7 : (1 : ℝ) / 2 ≤ √(exN.vsq1 1) := by
    apply Real.le_sqrt_of_sq_le
    norm_num [exN, MQ.vsq1]
  have h8 : √exN.vsq2 ≤ 12 / 10 := by
    rw [Real.sqrt_le_left (by norm_num)]
    norm_num [exN, MQ.vsq2]
  rw [h5]
  intro h4
  have h6 : exN.vt 1 = -1 / 2 := by linarith
  simp only [MQ.vt] at h6
  rw [h2, h3] at h6
  linarith

end Verif.Mosq
