import Mathlib.Analysis.SpecialFunctions.Pow.Real

/-!
Model of `constants.py`:28-112: thermal voltage, energy gap and intrinsic carrier density, over the reals.
-/

namespace Verif.Consts

/-- `e`, `k`, `Tref`, lines 29-36 -/
noncomputable def e : ℝ := 160217646 / 10 ^ 27
noncomputable def k : ℝ := 13806503 / 10 ^ 30
def Tref : ℝ := 300

/-- `Vth`, line 53 -/
noncomputable def Vth (T : ℝ) : ℝ := k * T / e

/-- the attributes of a `Material` -/
structure Material where
  Eg0 : ℝ
  alpha : ℝ
  beta : ℝ
  ni0 : ℝ

/-- `Material.Eg`, line 73 -/
noncomputable def Material.Eg (m : Material) (T : ℝ) : ℝ := m.Eg0 - m.alpha * T ^ 2 / (m.beta + T)

/-- `Material.ni`, line 88 -/
noncomputable def Material.ni (m : Material) (T : ℝ) : ℝ :=
  m.ni0 * (T / Tref) ^ ((3 : ℝ) / 2) * Real.exp (m.Eg Tref / (2 * Vth Tref) - m.Eg T / (2 * Vth T))

/-- `silicon`, lines 101-108 -/
noncomputable def si : Material := ⟨116 / 100, 702 / 1000000, 1108, 145 / 100 * 10 ^ 16⟩

end Verif.Consts
