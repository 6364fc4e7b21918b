import Mathlib.Algebra.Order.Floor.Ring
import Mathlib.Algebra.Order.Field.Basic
import Mathlib.Data.Rat.Floor

/-!
Model of `utilities.check_step_and_points` (utilities.py:551-595) in exact arithmetic.
`points` and `default_points` are integers, as documented.
-/

namespace Verif.StepPts

inductive PErr where
  | typeError
  | zeroDivision
  deriving DecidableEq, Repr

/-- Python's `int()` of a number: truncation towards zero. -/
def pyInt (x : ℚ) : ℤ := if 0 ≤ x then ⌊x⌋ else ⌈x⌉

/-- `check_step_and_points`; the result is `(points, step)`. -/
def check (step : Option ℚ) (points : Option ℤ) (period : Option ℚ) (default : ℤ) :
    Except PErr (ℤ × ℚ) :=
  -- lines 574-579
  let points := match step, points with
    | none, none => some default
    | some _, some _ => none
    | _, p => p
  -- `if points`: neither `None` nor zero
  match points with
  | some n =>
    if n ≠ 0 then
      match period with
      | none => .error .typeError
      | some T => if n - 1 = 0 then .error .zeroDivision else .ok (n, T / ((n - 1 : ℤ) : ℚ))
    else .error .typeError -- `float(period)/None`
  | none =>
    match period, step with
    | some T, some s =>
      if s = 0 then .error .zeroDivision
      else
        let p := T / s
        if Int.fract p ≠ 0 then
          if pyInt p = 0 then .error .zeroDivision
          else
            let s' := s + s * Int.fract p / (pyInt p : ℚ)
            if s' = 0 then .error .zeroDivision
            else .ok (pyInt (T / s') + 1, s')
        else .ok (pyInt p + 1, s)
    | _, _ => .error .typeError

end Verif.StepPts
