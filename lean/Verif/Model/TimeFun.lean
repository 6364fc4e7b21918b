import Mathlib.Algebra.Order.Floor.Ring
import Mathlib.Algebra.Order.Field.Basic
import Mathlib.Analysis.SpecialFunctions.Trigonometric.Basic
import Mathlib.Analysis.SpecialFunctions.Exp

/-!
Models of the time functions of sources (time_functions.py:402-850): pulse and piece-wise
linear over an ordered field with floor, the analytic ones over the reals.

`time = None` is replaced by 0 in every function; the models take the resulting number.
The linear spline of scipy used by `pwl` (`InterpolatedUnivariateSpline` with `k=1` and the
default treatment of outside arguments) is modelled as linear interpolation between the
points and linear extrapolation outside; the `td` of `sffm` and `am` is a number.
-/

namespace Verif.TimeFun

section
variable {K : Type} [Field K] [LinearOrder K] [FloorRing K]

/-- Parameters of a pulse as stored by `pulse.__init__` (lines 432-440). -/
structure Pulse (K : Type) where
  v1 : K
  v2 : K
  td : K
  tr : K
  pw : K
  tf : K
  per : K

/-- `pulse.__init__`: a negative delay is replaced by zero. -/
def Pulse.mk' (v1 v2 td tr pw tf per : K) : Pulse K := ⟨v1, v2, max td 0, tr, pw, tf, per⟩

/-- Python's `int()`. -/
def pyInt (x : K) : ℤ := if 0 ≤ x then ⌊x⌋ else ⌈x⌉

/-- `pulse.__call__`, lines 442-456. -/
def Pulse.call (p : Pulse K) (time0 : K) : K :=
  let time := time0 - p.per * (pyInt (time0 / p.per) : K)
  if time < p.td then p.v1
  else if time < p.td + p.tr then p.v1 + ((p.v2 - p.v1) / p.tr) * (time - p.td)
  else if time < p.td + p.tr + p.pw then p.v2
  else if time < p.td + p.tr + p.pw + p.tf then
    p.v2 + ((p.v1 - p.v2) / p.tf) * (time - (p.td + p.tr + p.pw))
  else p.v1

/-- The straight line through two points. -/
def line (p q : K × K) (t : K) : K := p.2 + (q.2 - p.2) / (q.1 - p.1) * (t - p.1)

/-- The linear spline: the segment that contains `t`; the outermost segments are extended.
(The spline needs at least two points; other lists are refused by scipy.) -/
def spline : List (K × K) → K → K
  | p :: q :: [], t => line p q t
  | p :: q :: r :: rest, t => if t ≤ q.1 then line p q t else spline (q :: r :: rest) t
  | [p], _ => p.2
  | [], _ => 0

/-- Attributes of a `pwl` object. -/
structure Pwl (K : Type) where
  pts : List (K × K)
  repeats : Bool
  repeatTime : K
  td : K

/-- `max(self.x)`. -/
def maxX (pts : List (K × K)) : K := (pts.map Prod.fst).foldl max ((pts.map Prod.fst).headD 0)

/-- `pwl.__init__`, lines 796-806. -/
def Pwl.init (pts : List (K × K)) (repeats : Bool) (repeatTime td : K) : Pwl K :=
  ⟨pts, repeats, if repeatTime = maxX pts then 0 else repeatTime, td⟩

/-- Python's `%` for a positive modulus. -/
def pyMod (a m : K) : K := a - m * (⌊a / m⌋ : K)

/-- `_normalize_time`, lines 813-827. -/
def Pwl.normalize (w : Pwl K) (time : K) : K :=
  if time ≤ w.td then 0
  else
    let t := time - w.td
    if w.repeats ∧ t > maxX w.pts then
      pyMod (t - maxX w.pts) (maxX w.pts - w.repeatTime) + w.repeatTime
    else t

/-- `pwl.__call__`, lines 808-811. -/
def Pwl.call (w : Pwl K) (time : K) : K := spline w.pts (w.normalize time)

end

/-- `sin.__call__`, lines 511-521. -/
noncomputable def sinF (vo va freq td theta phi time : ℝ) : ℝ :=
  if time < td then vo + va * Real.sin (Real.pi * phi / 180)
  else vo + va * Real.exp ((td - time) * theta) *
    Real.sin (2 * Real.pi * freq * (time - td) + Real.pi * phi / 180)

/-- `exp.__call__`, lines 587-600. -/
noncomputable def expF (v1 v2 td1 tau1 td2 tau2 time : ℝ) : ℝ :=
  if time < td1 then v1
  else if time < td2 then v1 + (v2 - v1) * (1 - Real.exp (-1 * (time - td1) / tau1))
  else v1 + (v2 - v1) * (1 - Real.exp (-1 * (time - td1) / tau1)) +
    (v1 - v2) * (1 - Real.exp (-1 * (time - td2) / tau2))

/-- `sffm.__call__`, lines 655-666. -/
noncomputable def sffmF (vo va fc mdi fs td time : ℝ) : ℝ :=
  if time ≤ td then vo
  else vo + va * Real.sin (2 * Real.pi * fc * (time - td) +
    mdi * Real.sin (2 * Real.pi * fs * (time - td)))

/-- `am.__call__`, lines 715-724. -/
noncomputable def amF (sa fc fm oc td time : ℝ) : ℝ :=
  if time ≤ td then 0
  else sa * (oc + Real.sin (2 * Real.pi * fm * (time - td))) *
    Real.sin (2 * Real.pi * fc * (time - td))

end Verif.TimeFun
