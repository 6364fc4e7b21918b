import Verif.Model.Consts
import Mathlib.Tactic.Linarith
import Mathlib.Tactic.FieldSimp

/-!
C134: the energy gap falls and the intrinsic carrier density rises with temperature.
-/

namespace Verif.Consts

theorem Vth_pos {T : ℝ} (hT : 0 < T) : 0 < Vth T := by
  unfold Vth k e; positivity

/-- the values a semiconductor has -/
structure Material.Phys (m : Material) : Prop where
  Eg0 : 0 < m.Eg0
  alpha : 0 < m.alpha
  beta : 0 < m.beta
  ni0 : 0 < m.ni0

theorem si_phys : si.Phys := by
  constructor <;> norm_num [si]

/-- C134: thermal voltage is proportional to the absolute temperature. -/
theorem C134_thermal (T c : ℝ) : Vth (c * T) = c * Vth T ∧ (0 < T → 0 < Vth T) := by
  refine ⟨by unfold Vth; ring, Vth_pos⟩

theorem ratio_lt {b x y : ℝ} (hb : 0 < b) (hx : 0 ≤ x) (h : x < y) : x / (b + x) < y / (b + y) := by
  rw [div_lt_div_iff₀ (by linarith) (by linarith)]
  nlinarith

/-- C134: the energy gap falls with temperature, from `Eg_0` at absolute zero. -/
theorem C134_gap (m : Material) (hm : m.Phys) {T1 T2 : ℝ} (h0 : 0 ≤ T1) (h : T1 < T2) :
    m.Eg T2 < m.Eg T1 ∧ m.Eg 0 = m.Eg0 := by
  have hb := hm.beta
  have ha := hm.alpha
  refine ⟨?_, by simp [Material.Eg]⟩
  have h1 := ratio_lt hb h0 h
  have h2 : T1 * (T1 / (m.beta + T1)) < T2 * (T2 / (m.beta + T2)) := by
    have hp : 0 ≤ T1 / (m.beta + T1) := div_nonneg h0 (by linarith)
    nlinarith
  have h3 := mul_lt_mul_of_pos_left h2 ha
  unfold Material.Eg
  have e1 : ∀ T : ℝ, m.alpha * T ^ 2 / (m.beta + T) = m.alpha * (T * (T / (m.beta + T))) := fun T => by ring
  rw [e1, e1]
  linarith

/-- half the gap over the thermal voltage -/
theorem exponent {m : Material} (hm : m.Phys) {T : ℝ} (hT : 0 < T) :
    m.Eg T / (2 * Vth T) = e / (2 * k) * (m.Eg0 / T - m.alpha * (T / (m.beta + T))) := by
  have hb : m.beta + T ≠ 0 := by have := hm.beta; linarith
  have hk : k ≠ 0 := by unfold k; norm_num
  have he : e ≠ 0 := by unfold e; norm_num
  unfold Material.Eg Vth
  field_simp

/-- C134: the intrinsic carrier density is positive, rises with temperature, and has its nominal value at the
reference temperature. -/
theorem C134_density (m : Material) (hm : m.Phys) {T1 T2 : ℝ} (h0 : 0 < T1) (h : T1 < T2) :
    0 < m.ni T1 ∧ m.ni T1 < m.ni T2 ∧ m.ni Tref = m.ni0 := by
  have hn := hm.ni0
  have hr : (0 : ℝ) < Tref := by norm_num [Tref]
  have h2 : 0 < T2 := h0.trans h
  have pos : ∀ T : ℝ, 0 < T → 0 < m.ni T := fun T hT =>
    mul_pos (mul_pos hn (Real.rpow_pos_of_pos (div_pos hT hr) _)) (Real.exp_pos _)
  refine ⟨pos T1 h0, ?_, ?_⟩
  · have hk : 0 < e / (2 * k) := by unfold e k; norm_num
    have hexp : m.Eg T2 / (2 * Vth T2) < m.Eg T1 / (2 * Vth T1) := by
      rw [exponent hm h0, exponent hm h2]
      refine mul_lt_mul_of_pos_left ?_ hk
      have a1 : m.Eg0 / T2 < m.Eg0 / T1 := div_lt_div_of_pos_left hm.Eg0 h0 h
      have a2 := mul_lt_mul_of_pos_left (ratio_lt hm.beta h0.le h) hm.alpha
      linarith
    have hp : (T1 / Tref) ^ ((3 : ℝ) / 2) < (T2 / Tref) ^ ((3 : ℝ) / 2) :=
      Real.rpow_lt_rpow (div_pos h0 hr).le (div_lt_div_of_pos_right h hr) (by norm_num)
    have he : Real.exp (m.Eg Tref / (2 * Vth Tref) - m.Eg T1 / (2 * Vth T1)) <
        Real.exp (m.Eg Tref / (2 * Vth Tref) - m.Eg T2 / (2 * Vth T2)) := Real.exp_lt_exp.2 (by linarith)
    unfold Material.ni
    exact mul_lt_mul (mul_lt_mul_of_pos_left hp hn) he.le (Real.exp_pos _)
      (mul_pos hn (Real.rpow_pos_of_pos (div_pos h2 hr) _)).le
  · unfold Material.ni
    rw [div_self hr.ne', Real.one_rpow, sub_self, Real.exp_zero]
    ring

/-- C134 for silicon, the material of the program: 1.16 eV at absolute zero, 1.45e16 carriers per cubic metre at the
reference temperature, rising with temperature. -/
theorem C134_silicon {T1 T2 : ℝ} (h0 : 0 < T1) (h : T1 < T2) :
    si.Eg 0 = 1.16 ∧ si.ni 300 = 1.45e16 ∧ si.Eg T2 < si.Eg T1 ∧ si.ni T1 < si.ni T2 := by
  have h3 : si.ni 300 = si.ni0 := (C134_density si si_phys h0 h).2.2
  refine ⟨?_, ?_, (C134_gap si si_phys h0.le h).1, (C134_density si si_phys h0 h).2.1⟩
  · rw [(C134_gap si si_phys h0.le h).2]; norm_num [si]
  · rw [h3]; norm_num [si]

/-- silicon at 300 K: between 1.11 and 1.12 eV, and 25.8 mV to 25.9 mV -/
example : 111 / 100 < si.Eg 300 ∧ si.Eg 300 < 112 / 100 ∧ 258 / 10000 < Vth 300 ∧ Vth 300 < 259 / 10000 := by
  norm_num [si, Material.Eg, Vth, k, e]

example : si.ni 300 < si.ni 350 := (C134_density si si_phys (by norm_num) (by norm_num)).2.1

end Verif.Consts
