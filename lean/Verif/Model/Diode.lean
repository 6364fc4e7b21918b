import Mathlib.Analysis.SpecialFunctions.Exp
import Mathlib.Analysis.SpecialFunctions.Pow.Real
import Mathlib.Analysis.SpecialFunctions.Sqrt

/-!
Model of `diode_model` (diode.py:276-424): current, conductance, series resistance, temperature.

Numbers are real numbers; an infinite `BV` or `IKF` is `none`. Memoisation is left out (see `Memo`).
With a series resistance the code solves an equation by Newton's method; the model takes the root
as given.
-/

namespace Verif.Diode
open Real

structure DM where
  IS : ℝ
  N : ℝ
  NBV : ℝ
  ISR : ℝ
  NR : ℝ
  RS : ℝ
  BV : Option ℝ
  IKF : Option ℝ
  VT : ℝ
  T : ℝ
  XTI : ℝ
  TBV : ℝ
  TRS : ℝ

/-- `_safe_exp`, lines 384-385. -/
noncomputable def safeExp (x : ℝ) : ℝ := if x < 70 then exp x else exp 70 + 10 * x

noncomputable def DM.fwd (m : DM) (v : ℝ) : ℝ := m.IS * (safeExp (v / (m.N * m.VT)) - 1)
noncomputable def DM.recomb (m : DM) (v : ℝ) : ℝ := m.ISR * (safeExp (v / (m.NR * m.VT)) - 1)

/-- The exponential of the breakdown term; zero for an infinite breakdown voltage. -/
noncomputable def breakdown (bv : Option ℝ) (v s : ℝ) : ℝ :=
  match bv with
  | none => 0
  | some b => safeExp (-(v + b) / s)

noncomputable def DM.rev (m : DM) (v : ℝ) : ℝ :=
  -m.IS * (breakdown m.BV v (m.NBV * m.VT) - 1)

/-- The high-injection factor. -/
noncomputable def kinj (ikf : Option ℝ) (f : ℝ) : ℝ :=
  match ikf with
  | none => 1
  | some k => if 0 < k ∧ 0 < f then √(k / (k + f)) else 1

/-- `_get_i`, lines 387-395. -/
noncomputable def DM.cur (m : DM) (v : ℝ) : ℝ := kinj m.IKF (m.fwd v) * m.fwd v + m.recomb v + m.rev v

/-- `get_i` without series resistance. -/
noncomputable def DM.getI (m : DM) (area v : ℝ) : ℝ := m.cur v * area

/-- `get_i` with series resistance, lines 359-365: `vd` is a root of `_obj_irs`. -/
def DM.IsRoot (m : DM) (area vext vd : ℝ) : Prop := vd / m.RS - m.cur (vext - vd) * area = 0

noncomputable def DM.getIrs (m : DM) (vext vd : ℝ) : ℝ := m.cur (vext - vd)

/-- `get_gm`, lines 397-410; `gmin` is `options.gmin`. -/
noncomputable def DM.gm (m : DM) (gmin area v : ℝ) : ℝ :=
  let g := m.IS / (m.N * m.VT) * safeExp (v / (m.N * m.VT)) +
    -m.IS / m.VT * breakdown m.BV v m.VT +
    m.ISR / (m.NR * m.VT) * safeExp (v / (m.NR * m.VT))
  let g := if m.RS ≠ 0 then 1 / (m.RS + 1 / (g + 1 / 1000 * gmin)) else g
  area * g

/-- `set_temperature`, lines 415-424. `c`: the constant e·Eg(Tref)/k of the material. The attribute
`VT` keeps its value. -/
noncomputable def DM.setT (c : ℝ) (m : DM) (t : ℝ) : DM :=
  { m with
    IS := m.IS * (t / m.T) ^ (m.XTI / m.N) * exp (-c / (m.N * t) * (1 - t / m.T))
    BV := m.BV.map fun b => b - m.TBV * (t - m.T)
    RS := m.RS * (1 + m.TRS * (t - m.T))
    T := t }

end Verif.Diode
