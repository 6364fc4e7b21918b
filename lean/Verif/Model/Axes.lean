import Mathlib.Algebra.Order.Field.Basic
import Mathlib.Analysis.SpecialFunctions.Log.Base
import Mathlib.Analysis.SpecialFunctions.Pow.Real

/-!
Model of the sweep axes: `lin_axis_iterator` (utilities.py:307-378) over an ordered field
and `log_axis_iterator` (utilities.py:246-304) over the reals. `points` need not be an
integer (`dc_analysis` passes a quotient).
-/

namespace Verif.Axes

/-- Attributes of an axis object. -/
structure Axis (K : Type) where
  inc : K
  max : K
  min : K
  index : Nat
  current : K
  points : K

section
variable {K : Type} [Field K] [LinearOrder K]

/-- `lin_axis_iterator.__init__`, utilities.py:329-346 (`none`: `ValueError`). -/
def linInit (min max points : K) : Option (Axis K) :=
  if points < 2 ∧ min ≠ max then none
  else if points < 1 then none
  else
    let inc := if points > 1 then (max - min) / (points - 1) else 0
    some ⟨inc, max, min, 0, min, points⟩

/-- `lin_axis_iterator.__next__`, lines 351-362 (`none`: `StopIteration`). -/
def linNext (a : Axis K) : Option (K × Axis K) :=
  if a.index = 0 then some (a.current, { a with index := a.index + 1 })
  else if (a.index : K) < a.points then
    let c := a.current + a.inc
    some (c, { a with current := c, index := a.index + 1 })
  else none

/-- `lin_axis_iterator.__getitem__`, lines 364-371 (`none`: `None`). -/
def linGet (a : Axis K) (i : Nat) : Option K :=
  if (i : K) < a.points then some (a.min + a.inc * i) else none

end

/-- What a `for` loop over an iterator sees, at most `fuel` values. -/
def collect {σ β : Type} (next : σ → Option (β × σ)) : Nat → σ → List β
  | 0, _ => []
  | k + 1, s => match next s with
    | none => []
    | some (b, s') => b :: collect next k s'

/-- `log_axis_iterator.__init__`, utilities.py:266-272. -/
noncomputable def logInit (min max points : ℝ) : Axis ℝ :=
  ⟨(10 : ℝ) ^ ((Real.logb 10 max - Real.logb 10 min) / (points - 1)), max, min, 0, min, points⟩

/-- `log_axis_iterator.__next__`, lines 277-289. -/
noncomputable def logNext (a : Axis ℝ) : Option (ℝ × Axis ℝ) :=
  if a.index = 0 then some (a.current, { a with index := a.index + 1 })
  else if (a.index : ℝ) < a.points then
    let c := a.current * a.inc
    some (c, { a with current := c, index := a.index + 1 })
  else none

/-- `log_axis_iterator.__getitem__`, lines 291-300. -/
noncomputable def logGet (a : Axis ℝ) (i : Nat) : Option ℝ :=
  if i = 0 then some a.min
  else if (i : ℝ) < a.points then some (a.min * a.inc ^ i)
  else none

end Verif.Axes
