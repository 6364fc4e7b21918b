import Mathlib.Analysis.Complex.Trigonometric

/-!
Model of `vswitch_model` (switch.py:278-399): construction, state update, current and
conductances.

Numbers are real numbers. `math.tanh` is a parameter `th`: the ideal function, or one that reaches
±1 like the floating point one. The state of a switch is the flag `dev.is_on`; the attributes `V`
and `is_on` of the model are overwritten from it in every evaluation and are left out.
-/

namespace Verif.Switch

structure Sw where
  VT : ℝ
  VH : ℝ
  RON : ℝ
  ROFF : ℝ

/-- `__init__` and `_get_VTVH_from_VONVOFF`, lines 313-335; `gmin` is `options.gmin`. `none`:
`TypeError`, from `float(None)`. -/
noncomputable def mk (gmin : ℝ) (vt vh von voff ron roff : Option ℝ) : Option Sw :=
  let rest := fun (vt vh : Option ℝ) =>
    Sw.mk (vt.getD 0) (vh.getD 0) (ron.getD 1) (roff.getD (1 / gmin))
  match von, voff with
  | none, none => some (rest vt vh)
  | some a, some b =>
    let t := (a - b) / 2 + b
    some (rest (some t) (some (t * (1 / 1000))))
  | _, _ => none

noncomputable def Sw.A (p : Sw) : ℝ := (p.RON - p.ROFF) / 2
noncomputable def Sw.B (p : Sw) : ℝ := (p.RON + p.ROFF) / 2
def slope : ℝ := 100

/-- `_get_V`: the threshold in a state. -/
def Sw.V (p : Sw) (on : Bool) : ℝ := p.VT + p.VH * 2 * (if on then 0 else 1) - p.VH

/-- The resistance at a control voltage, in a state. -/
noncomputable def Sw.R (p : Sw) (th : ℝ → ℝ) (on : Bool) (vin : ℝ) : ℝ :=
  p.A * th ((vin - p.V on) * slope) + p.B

open Classical in
/-- `_update_status`, lines 348-366: the new state. -/
noncomputable def Sw.update (p : Sw) (th : ℝ → ℝ) (vin : ℝ) (on : Bool) : Bool :=
  let r1 := p.R th on vin
  let r2 := p.R th (!on) vin
  let on1 := if vin > p.V on ∧ on = false ∧ r1 - r2 = 0 then true else on
  if vin < p.V on1 ∧ on1 = true ∧ r1 - r2 = 0 then false else on1

/-- `get_i`, from a state: the current. -/
noncomputable def Sw.i (p : Sw) (th : ℝ → ℝ) (vout vin : ℝ) (on : Bool) : ℝ :=
  vout / p.R th (p.update th vin on) vin

/-- `get_go`. -/
noncomputable def Sw.go (p : Sw) (th : ℝ → ℝ) (_vout vin : ℝ) (on : Bool) : ℝ :=
  1 / p.R th (p.update th vin on) vin

/-- `get_gm`. -/
noncomputable def Sw.gm (p : Sw) (th : ℝ → ℝ) (gmin : ℝ) (_vout vin : ℝ) (on : Bool) : ℝ :=
  let v := p.V (p.update th vin on)
  p.A * slope * (th (slope * (v - vin)) ^ 2 - 1) / (p.A * th (slope * (v - vin)) - p.B) ^ 2 + gmin

/-- The states of a switch evaluated at a sequence of control voltages. -/
noncomputable def Sw.history (p : Sw) (th : ℝ → ℝ) : Bool → List ℝ → List Bool
  | _, [] => []
  | on, v :: vs => p.update th v on :: p.history th (p.update th v on) vs

end Verif.Switch
