import Verif.Props.MosCtor

/-!
# C198: parameters of transistor models that are not given

Parameters that are not given are computed from the data of the process: the capacitance from the thickness of the oxide, the
body factor and the surface potential from the doping, the threshold from the flat-band voltage, the conductance factor from the
mobility.
-/

namespace Verif.MosCtor
open Real

/-- the parameters of a model made at the reference temperature -/
theorem nominal {k : Kind} {p : Phys} {a : Args} {m : Model} (hm : modelCtor k p a = .ok m) (hn : a.TNOM = some p.T) :
    typeOf k a.TYPE = .ok m.NPMOS ∧ coxOf p a = .ok m.COX ∧ gammaOf p a m.COX = .ok m.GAMMA ∧
    phiOf p a p.T = .ok m.th.PHI ∧ vtoOf k a m.NPMOS = .ok m.th.VTO ∧ m.th.KP = kpOf a m.COX ∧ selfCheck k m = none := by
  obtain ⟨np, cox, gamma, phi, vto, h1, h2, h3, h4, h5, h6, h7, h8⟩ := ctor_ok.1 hm
  simp only [hn, Option.getD_some] at h2 h5 h7
  rw [(Mosq.C47_nominal_partial (p.vth p.T) p.eg _ (show 0 < p.T from h2) 0).1] at h7
  subst h7
  exact ⟨h1, h3, h4, h5, h6, rfl, h8⟩

/-- C198: the capacitance of the oxide is its permittivity over its thickness, the surface potential is the one of the doping
(`exp (PHI / 2 Vth)` is the ratio of the densities), and the conductance factor is mobility times capacitance; doping and mobility
are given in cm. What is missing: the body factor (`C198_body_refuted`) and the threshold (`C198_threshold_refuted`). -/
theorem C198_derived_partial {k : Kind} {p : Phys} {a : Args} {m : Model} (hm : modelCtor k p a = .ok m) (hn : a.TNOM = some p.T)
    (hv : p.vth p.T ≠ 0) :
    (∀ c, a.COX = some c → m.COX = c) ∧
    (∀ t, a.COX = none → a.TOX = some t → t ≠ 0 ∧ m.COX * t = p.eox) ∧
    (∀ v, a.PHI = some v → m.th.PHI = v) ∧
    (∀ d, a.PHI = none → a.NSUB = some d → 0 < d * 10 ^ 6 / p.ni p.T ∧ exp (m.th.PHI / (2 * p.vth p.T)) = d * 10 ^ 6 / p.ni p.T) ∧
    (∀ kp, a.KP = some kp → m.th.KP = kp) ∧
    (∀ u, a.KP = none → a.U0 = some u → m.th.KP = u * (1 / 100) ^ 2 * m.COX) := by
  obtain ⟨-, h2, -, h4, -, h6, -⟩ := nominal hm hn
  refine ⟨?_, ?_, ?_, ?_, ?_, ?_⟩
  · intro c hc
    simp only [coxOf, hc] at h2
    exact (Except.ok.inj h2).symm
  · intro t hc ht
    simp only [coxOf, hc, ht] at h2
    split_ifs at h2 with h0
    refine ⟨h0, ?_⟩
    rw [← Except.ok.inj h2]
    exact div_mul_cancel₀ _ h0
  · intro v hp
    simp only [phiOf, hp] at h4
    exact (Except.ok.inj h4).symm
  · intro d hp hd
    simp only [phiOf, hp, hd, pyLog] at h4
    split_ifs at h4 with h0
    · simp only [Except.ok.injEq] at h4
      refine ⟨h0, ?_⟩
      rw [← h4, mul_div_cancel_left₀ _ (mul_ne_zero two_ne_zero hv), exp_log h0]
  · intro kp hk
    rw [h6]; simp [kpOf, hk]
  · intro u hk hu
    rw [h6]
    simp only [kpOf, hk, hu]
    ring

/-- C198: what is given by nothing has its default: 0.7 mF/m², body factor 1, 0.7 V, 50 µA/V², and a threshold of 0.5 V, which
for the EKV model of a p-channel transistor is -0.5 V. -/
theorem C198_default {k : Kind} {p : Phys} {a : Args} {m : Model} (hm : modelCtor k p a = .ok m) (hn : a.TNOM = some p.T) :
    (a.COX = none → a.TOX = none → m.COX = 0.0007) ∧
    (a.GAMMA = none → a.NSUB = none → m.GAMMA = 1) ∧
    (a.PHI = none → a.NSUB = none → m.th.PHI = 0.7) ∧
    (a.KP = none → a.U0 = none → m.th.KP = 0.00005) ∧
    (a.VTO = none → a.VFB = none → m.th.VTO = if k = .ekv then m.NPMOS * 0.5 else 0.5) := by
  obtain ⟨-, h2, h3, h4, h5, h6, -⟩ := nominal hm hn
  refine ⟨?_, ?_, ?_, ?_, ?_⟩
  · intro h1 h1'
    simp only [coxOf, h1, h1'] at h2
    rw [← Except.ok.inj h2]; norm_num
  · intro h1 h1'
    simp only [gammaOf, h1, h1'] at h3
    exact (Except.ok.inj h3).symm
  · intro h1 h1'
    simp only [phiOf, h1, h1'] at h4
    rw [← Except.ok.inj h4]; norm_num
  · intro h1 h1'
    rw [h6]
    simp only [kpOf, h1, h1']; norm_num
  · intro h1 h1'
    simp only [vtoOf, h1, h1'] at h5
    rw [← Except.ok.inj h5]
    cases k
    · rw [if_neg (by decide)]; norm_num
    · rw [if_pos rfl]; norm_num

/-- C198: the body factor computed from the doping: its square times the capacitance of the oxide is `2 q ε N`. -/
theorem C198_body {k : Kind} {p : Phys} {a : Args} {m : Model} (hm : modelCtor k p a = .ok m) (hn : a.TNOM = some p.T) {d : ℝ}
    (hg : a.GAMMA = none) (hd : a.NSUB = some d) : 0 < m.GAMMA ∧ m.COX ≠ 0 ∧ m.GAMMA ^ 2 * m.COX = 2 * p.q * p.esi * (d * 100 ^ 3) := by
  obtain ⟨-, -, h3, -, -, -, h7⟩ := nominal hm hn
  obtain ⟨-, -, hpos, -⟩ := self_ok h7
  simp only [gammaOf, hg, hd, pySqrt] at h3
  split_ifs at h3 with h0 h1
  refine ⟨hpos, h0, ?_⟩
  rw [← Except.ok.inj h3, sq_sqrt (not_lt.1 h1), div_mul_cancel₀ _ h0]
  ring

/-- C198 refuted: the body factor is not `√(2 q ε N) / COX`, as the capacitance is inside of the root: for no doping, unless the
capacitance is 1 F/m². -/
theorem C198_body_refuted {k : Kind} {p : Phys} {a : Args} {m : Model} (hm : modelCtor k p a = .ok m) (hn : a.TNOM = some p.T) {d : ℝ}
    (hg : a.GAMMA = none) (hd : a.NSUB = some d) (hc : m.COX ≠ 1) : m.GAMMA ≠ √(2 * p.q * p.esi * (d * 100 ^ 3)) / m.COX := by
  obtain ⟨h1, h2, h3⟩ := C198_body hm hn hg hd
  intro h
  have e1 : m.GAMMA * m.COX = √(2 * p.q * p.esi * (d * 100 ^ 3)) := by rw [h, div_mul_cancel₀ _ h2]
  have hpos : 0 ≤ 2 * p.q * p.esi * (d * 100 ^ 3) := by
    by_contra hneg
    rw [sqrt_eq_zero_of_nonpos (not_le.1 hneg).le] at e1
    rcases mul_eq_zero.1 e1 with h | h
    · exact h1.ne' h
    · exact h2 h
  have e2 : (m.GAMMA * m.COX) ^ 2 = m.GAMMA ^ 2 * m.COX := by rw [e1, sq_sqrt hpos, h3]
  have e3 : m.GAMMA ^ 2 * m.COX * (m.COX - 1) = 0 := by linear_combination e2
  rcases mul_eq_zero.1 e3 with h | h
  · rcases mul_eq_zero.1 h with h | h
    · exact (pow_pos h1 2).ne' h
    · exact h2 h
  · exact hc (sub_eq_zero.1 h)

/-- C198: the threshold computed from the flat-band voltage, which needs body factor and surface potential as arguments. -/
theorem C198_threshold {k : Kind} {p : Phys} {a : Args} {m : Model} (hm : modelCtor k p a = .ok m) (hn : a.TNOM = some p.T) {f : ℝ}
    (hv : a.VTO = none) (hf : a.VFB = some f) :
    a.PHI = some m.th.PHI ∧ a.GAMMA = some m.GAMMA ∧ m.th.VTO = f + m.th.PHI + m.GAMMA * m.th.PHI := by
  obtain ⟨-, -, h3, h4, h5, -, -⟩ := nominal hm hn
  simp only [vtoOf, hv, hf] at h5
  rcases hp : a.PHI with _ | v
  · simp [hp] at h5
  · rcases hg : a.GAMMA with _ | g
    · simp [hp, hg] at h5
    · simp only [phiOf, hp] at h4
      simp only [gammaOf, hg] at h3
      obtain rfl := Except.ok.inj h3
      obtain rfl := Except.ok.inj h4
      simp only [hp, hg, Except.ok.injEq] at h5
      exact ⟨rfl, rfl, h5.symm⟩

/-- C198 refuted: that threshold is not `VFB + PHI + GAMMA √PHI`, unless the surface potential is 1 V. -/
theorem C198_threshold_refuted {k : Kind} {p : Phys} {a : Args} {m : Model} (hm : modelCtor k p a = .ok m) (hn : a.TNOM = some p.T)
    {f : ℝ} (hv : a.VTO = none) (hf : a.VFB = some f) (h1 : m.th.PHI ≠ 1) : m.th.VTO ≠ f + m.th.PHI + m.GAMMA * √m.th.PHI := by
  obtain ⟨-, -, e⟩ := C198_threshold hm hn hv hf
  obtain ⟨-, -, hg, hp, -⟩ := self_ok (nominal hm hn).2.2.2.2.2.2
  intro h
  rw [e] at h
  have h2 : m.th.PHI = √m.th.PHI := mul_left_cancel₀ hg.ne' (add_left_cancel h)
  have h3 : 0 < m.th.PHI := by linarith
  have h4 := sq_sqrt h3.le
  rw [← h2] at h4
  exact h1 (mul_left_cancel₀ h3.ne' (by linarith [h4] : m.th.PHI * m.th.PHI = m.th.PHI * 1))

/-- C198 refuted: flat-band voltage and doping do not give a threshold: TypeError, as the body factor computed from the doping
is not used. -/
theorem C198_flatband_refuted (k : Kind) (p : Phys) (a : Args) {np : ℝ} (ht : typeOf k a.TYPE = .ok np) (hT : 0 < p.T)
    (hn : a.TNOM = some p.T) (hc : ∃ c, 0 < c ∧ coxOf p a = .ok c) {d f : ℝ} (hd : a.NSUB = some d) (hd0 : 0 < d)
    (hpos : 0 ≤ p.q * p.esi) (hni : 0 < p.ni p.T) (hg : a.GAMMA = none) (hv : a.VTO = none) (hf : a.VFB = some f) :
    modelCtor k p a = .error .type := by
  obtain ⟨c, c0, hc⟩ := hc
  have h3 : gammaOf p a c = .ok (√(2 * p.q * p.esi * d * 10 ^ 6 / c)) := by
    simp only [gammaOf, hg, hd, c0.ne', if_false, pySqrt]
    rw [if_neg (not_lt.2 ?_)]
    rw [show 2 * p.q * p.esi * d * 10 ^ 6 / c = 2 * (p.q * p.esi) * d * 10 ^ 6 / c by ring]
    positivity
  have h4 : ∃ v, phiOf p a p.T = .ok v := by
    rcases hp : a.PHI with _ | v
    · refine ⟨2 * p.vth p.T * log (d * 10 ^ 6 / p.ni p.T), ?_⟩
      simp only [phiOf, hp, hd, pyLog]
      rw [if_pos (by positivity)]
    · exact ⟨v, by simp only [phiOf, hp]⟩
  obtain ⟨v, h4⟩ := h4
  have h5 : vtoOf k a np = .error .type := by
    rcases hp : a.PHI with _ | v <;> simp [vtoOf, hv, hf, hg, hp]
  unfold modelCtor
  simp only [hn, Option.getD_some, ht, bind, Except.bind, not_le.2 hT, if_false, hc, h3, h4, h5]

/-- C198: a doping that is not positive is refused when it is needed; with surface potential given, a doping of zero gives no
body factor. -/
theorem C198_doping (k : Kind) (p : Phys) (d : ℝ) (hd : d ≤ 0) (hT : 0 < p.T) (hpos : 0 < p.q * p.esi) (f : ℝ) :
    modelCtor k p { TYPE := "n", TNOM := some p.T, NSUB := some d } = .error .domain ∧
    modelCtor k p { TYPE := "n", TNOM := some p.T, NSUB := some d, PHI := some f } =
      .error (if d = 0 then .range "GAMMA" else .domain) := by
  have ht : typeOf k "n" = .ok 1 := by cases k <;> simp [typeOf]
  have e : 2 * p.q * p.esi * d * 10 ^ 6 / (7 / 10000) = 2 * (p.q * p.esi) * d * 10 ^ 6 / (7 / 10000) := by ring
  rcases hd.lt_or_eq with h | rfl
  · have hneg : 2 * p.q * p.esi * d * 10 ^ 6 / (7 / 10000) < 0 := by
      rw [e]
      have : p.q * p.esi * d < 0 := mul_neg_of_pos_of_neg hpos h
      rw [div_lt_iff₀ (by norm_num)]
      nlinarith
    constructor
    · simp [modelCtor, ht, bind, Except.bind, not_le.2 hT, coxOf, gammaOf, pySqrt, hneg]
    · simp [modelCtor, ht, bind, Except.bind, not_le.2 hT, coxOf, gammaOf, pySqrt, hneg, h.ne]
  · constructor
    · simp [modelCtor, ht, bind, Except.bind, not_le.2 hT, coxOf, gammaOf, pySqrt, phiOf, pyLog]
    · have hv : ∃ v, vtoOf k { TYPE := "n", TNOM := some p.T, NSUB := some 0, PHI := some f } 1 = .ok v := by
        cases k <;> exact ⟨_, rfl⟩
      obtain ⟨v, hv⟩ := hv
      simp [modelCtor, ht, bind, Except.bind, not_le.2 hT, coxOf, gammaOf, pySqrt, phiOf, hv, checked, selfCheck]

/-- C198: the letters for the types: the square-law model knows upper and lower case. -/
theorem C198_type (t : String) (np : ℝ) :
    (typeOf .mosq t = .ok np ↔ (t = "n" ∨ t = "N") ∧ np = 1 ∨ (t = "p" ∨ t = "P") ∧ np = -1) ∧
    (typeOf .ekv t = .ok np ↔ t = "n" ∧ np = 1 ∨ t ≠ "n" ∧ np = -1) := by
  constructor
  · unfold typeOf
    simp only
    split_ifs with h1 h2
    · have : ¬ (t = "p" ∨ t = "P") := by rcases h1 with rfl | rfl <;> simp
      simp [h1, this, eq_comm]
    · simp [h1, h2, eq_comm]
    · simp [h1, h2]
  · unfold typeOf
    by_cases h : t = "n" <;> simp [h, eq_comm]

/-! ### Examples -/

/-- a process: unit charges and permittivities, doping of 1 /cm³ at a density of `10 ^ 6 / e` -/
noncomputable def proc : Phys :=
  { T := 300, eox := 2, esi := 1, q := 1, vth := fun _ => 1, ni := fun _ => 10 ^ 6 / exp 1, eg := fun _ => 1 }

/-- oxide of thickness 4: capacitance 1/2; body factor 2000 instead of `2 √2 · 1000`; surface potential 2 V; mobility 10000 -/
example : ∃ m, modelCtor .mosq proc { TYPE := "P", TNOM := some 300, TOX := some 4, NSUB := some 1, U0 := some 10000 } = .ok m ∧
    m.COX = 1 / 2 ∧ m.GAMMA = 2000 ∧ m.th.PHI = 2 ∧ m.th.KP = 1 / 2 ∧ m.th.VTO = 1 / 2 ∧ m.NPMOS = -1 := by
  have hs : √(4 * 10 ^ 6 : ℝ) = 2000 := by
    rw [show (4 * 10 ^ 6 : ℝ) = 2000 ^ 2 by norm_num]
    exact sqrt_sq (by norm_num)
  have hc : coxOf proc { TYPE := "P", TNOM := some 300, TOX := some 4, NSUB := some 1, U0 := some 10000 } = .ok (1 / 2) := by
    norm_num [coxOf, proc]
  have hg : gammaOf proc { TYPE := "P", TNOM := some 300, TOX := some 4, NSUB := some 1, U0 := some 10000 } (1 / 2) = .ok 2000 := by
    rw [← hs]
    norm_num [gammaOf, proc, pySqrt]
  have hl : (1 : ℝ) * 10 ^ 6 / (10 ^ 6 / exp 1) = exp 1 := by
    field_simp
  have hp : phiOf proc { TYPE := "P", TNOM := some 300, TOX := some 4, NSUB := some 1, U0 := some 10000 } 300 = .ok 2 := by
    simp only [phiOf, proc, pyLog, hl, exp_pos, if_true, log_exp]
    norm_num
  have key : ∃ m, modelCtor .mosq proc { TYPE := "P", TNOM := some 300, TOX := some 4, NSUB := some 1, U0 := some 10000 } = .ok m := by
    refine ⟨_, ctor_ok.2 ⟨-1, 1 / 2, 2000, 2, 1 / 2, by simp [typeOf], by simp, hc, hg, hp, rfl, rfl, ?_⟩⟩
    simp only [Option.getD_some, show proc.T = 300 from rfl]
    rw [(Mosq.C47_nominal_partial (proc.vth 300) proc.eg _ (show (0 : ℝ) < 300 by norm_num) 0).1, self_iff]
    norm_num
  obtain ⟨m, hm⟩ := key
  obtain ⟨h1, h2, h3, h4, h5, h6, -⟩ := nominal hm rfl
  have c0 : m.COX = 1 / 2 := (Except.ok.inj (hc.symm.trans h2)).symm
  rw [c0] at h3 h6
  refine ⟨m, hm, c0, (Except.ok.inj (hg.symm.trans h3)).symm, (Except.ok.inj (hp.symm.trans h4)).symm, ?_, ?_, ?_⟩
  · rw [h6]; norm_num [kpOf]
  · simp only [vtoOf] at h5
    exact (Except.ok.inj h5).symm
  · rcases (C198_type "P" m.NPMOS).1.1 h1 with ⟨h, -⟩ | ⟨-, h⟩
    · simp at h
    · exact h

/-- with all of them given, and the flat-band voltage: threshold 1 + 4 + 2·4 = 13 V instead of 9 V -/
example : ∃ m, modelCtor .ekv proc { TYPE := "n", TNOM := some 300, GAMMA := some 2, PHI := some 4, VFB := some 1 } = .ok m ∧
    m.th.VTO = 13 ∧ (1 + 4 + 2 * √4 : ℝ) = 9 := by
  have key : ∃ m, modelCtor .ekv proc { TYPE := "n", TNOM := some 300, GAMMA := some 2, PHI := some 4, VFB := some 1 } = .ok m := by
    refine ⟨_, ctor_ok.2 ⟨1, 7 / 10000, 2, 4, 1 + 4 + 2 * 4, by simp [typeOf], by simp, rfl, rfl, rfl, rfl, rfl, ?_⟩⟩
    simp only [Option.getD_some, show proc.T = 300 from rfl]
    rw [(Mosq.C47_nominal_partial (proc.vth 300) proc.eg _ (show (0 : ℝ) < 300 by norm_num) 0).1, self_iff]
    refine ⟨by simp, by simp, by norm_num, by norm_num, by simp⟩
  obtain ⟨m, hm⟩ := key
  obtain ⟨h1, h2, h3⟩ := C198_threshold hm rfl (f := 1) rfl rfl
  simp only [Option.some.injEq] at h1 h2
  refine ⟨m, hm, by rw [h3, ← h1, ← h2]; norm_num, ?_⟩
  rw [show (4 : ℝ) = 2 ^ 2 by norm_num, sqrt_sq (by norm_num)]
  norm_num

end Verif.MosCtor
