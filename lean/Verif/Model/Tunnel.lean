import Verif.Model.Circuit
import Mathlib.Analysis.SpecialFunctions.Trigonometric.Basic

/-!
Model of `TunnelJunctionModel` (components/TunnelJunction.py:206-265), over the reals: the rounding of floats is not
modelled. The constants of scipy are parameters. The memoization of `get_i` and `get_gm` is modelled in `Memo`.
-/

namespace Verif.Tunnel
open Verif.Circuit (Err)

/-- `q`, `hbar`, `m`, lines 212-216; `eV` is numerically `q` -/
structure Consts where
  q : ℝ
  hbar : ℝ
  m : ℝ

/-- `endiff`, line 218 -/
noncomputable def endiff (k : Consts) (V PHI fr : ℝ) : ℝ := (PHI - fr * k.q * V) / 2

/-- `d_endiff`, line 219 -/
noncomputable def dEndiff (k : Consts) (fr : ℝ) : ℝ := -fr * k.q / 2

/-- `expfr`, line 220 -/
noncomputable def expfr (k : Consts) (V PHI d fr : ℝ) : ℝ :=
  Real.exp (-(2 * Real.sqrt (2 * k.m)) / k.hbar * Real.sqrt (endiff k V PHI fr) * d)

/-- `d_expfr`, line 221 -/
noncomputable def dExpfr (k : Consts) (V PHI d fr : ℝ) : ℝ :=
  -(2 * Real.sqrt (2 * k.m)) / k.hbar * d / Real.sqrt (endiff k V PHI fr) / 2 * dEndiff k fr *
    Real.exp (-(2 * Real.sqrt (2 * k.m) / k.hbar * Real.sqrt (endiff k V PHI fr) * d))

/-- `term` and `d_term`, lines 222-223 -/
noncomputable def term (k : Consts) (V PHI d fr : ℝ) : ℝ := endiff k V PHI fr * expfr k V PHI d fr

noncomputable def dTerm (k : Consts) (V PHI d fr : ℝ) : ℝ :=
  dEndiff k fr * expfr k V PHI d fr + dExpfr k V PHI d fr * endiff k V PHI fr

/-- the factor in front of both formulas; `d` in ångström -/
noncomputable def factor (k : Consts) (d : ℝ) : ℝ := k.q / (4 * Real.pi ^ 2 * k.hbar * (d * (1 / 10 ^ 10)) ^ 2)

/-- the values of lines 255 and 261, without the exceptions -/
noncomputable def current (k : Consts) (phiB d V : ℝ) : ℝ :=
  factor k d * (term k V (phiB * k.q) (d * (1 / 10 ^ 10)) 1 - term k V (phiB * k.q) (d * (1 / 10 ^ 10)) (-1))

noncomputable def conductance (k : Consts) (phiB d V : ℝ) : ℝ :=
  factor k d * (dTerm k V (phiB * k.q) (d * (1 / 10 ^ 10)) 1 - dTerm k V (phiB * k.q) (d * (1 / 10 ^ 10)) (-1))

open Classical in
/-- `_get_i`, line 261: division by `d`, then `math.sqrt` of the two differences -/
noncomputable def getI (k : Consts) (phiB d V : ℝ) : Except Err ℝ :=
  if d = 0 then .error .exn
  else if endiff k V (phiB * k.q) 1 < 0 then .error .value
  else if endiff k V (phiB * k.q) (-1) < 0 then .error .value
  else .ok (current k phiB d V)

open Classical in
/-- `get_gm`, line 255: in addition there is the division by the square roots -/
noncomputable def getGm (k : Consts) (phiB d V : ℝ) : Except Err ℝ :=
  if d = 0 then .error .exn
  else if endiff k V (phiB * k.q) 1 < 0 then .error .value
  else if endiff k V (phiB * k.q) 1 = 0 then .error .exn
  else if endiff k V (phiB * k.q) (-1) < 0 then .error .value
  else if endiff k V (phiB * k.q) (-1) = 0 then .error .exn
  else .ok (conductance k phiB d V)

end Verif.Tunnel
