import Verif.Model.Diode
import Verif.Model.Circuit

/-!
Model of `diode_model.get_i` with series resistance (diode.py:353-382): the voltage of the series resistance by the function
`scipy.optimize.newton` with the first derivative.

The loop of `newton` is the one of scipy for real numbers; `guard`: version 1.2 or later, which tests for an exact zero before each
step and accepts a step equal to the tolerance. `maxiter` is 500 (line 362).
-/

namespace Verif.Diode
open Real Verif.Circuit

/-- `_obj_irs`, lines 367-369. -/
noncomputable def DM.objRs (m : DM) (area vext x : ℝ) : ℝ := x / m.RS - m.cur (vext - x) * area

/-- `_obj_irs_prime`, lines 371-382: the series resistance is set to 0 for the call of `get_gm`. -/
noncomputable def DM.objRsPrime (m : DM) (gmin area vext x : ℝ) : ℝ :=
  1 / m.RS + DM.gm { m with RS := 0 } gmin area (vext - x)

/-- the loop of `newton`, `n` more iterations -/
noncomputable def DM.newton (m : DM) (guard : Bool) (gmin area vext tol : ℝ) : Nat → ℝ → Except Err ℝ
  | 0, _ => .error .exn
  | n + 1, x =>
    if guard = true ∧ m.objRs area vext x = 0 then .ok x
    else
      let p := x - m.objRs area vext x / m.objRsPrime gmin area vext x
      if |p - x| < tol ∨ (guard = true ∧ |p - x| = tol) then .ok p else m.newton guard gmin area vext tol n p

/-- `get_i` with series resistance, lines 359-365: the current and the voltage stored for the next start. `last`: `dev.last_vd`. -/
noncomputable def DM.getIn (m : DM) (guard : Bool) (gmin area tol vext : ℝ) (last : Option ℝ) : Except Err (ℝ × ℝ) :=
  match m.newton guard gmin area vext tol 500 (last.getD (10 * m.VT)) with
  | .ok vd => .ok (m.cur (vext - vd), vd)
  | .error r => .error r

end Verif.Diode
