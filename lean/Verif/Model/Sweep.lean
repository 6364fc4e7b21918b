import Verif.Model.Axes
import Mathlib.Algebra.Order.Floor.Semiring
import Mathlib.Algebra.Order.Floor.Ring
import Mathlib.Data.Rat.Floor

/-!
Model of `dc_analysis.dc_analysis` (dc_analysis.py:461-595), linear sweeps.

The operating point is an oracle: it gets the number of the sweep point, the value the
source has at that moment and the previous solution, and it either raises, fails (`None`)
or returns a solution. The logarithmic sweep and the look-up of the source
are in `Model.DcFront`. Not modelled: tickers and printing. Numbers are exact.
-/

namespace Verif.Sweep

open Verif.Axes

/-- What `op_analysis` does at a point. -/
inductive Outcome (S : Type) where
  | raises
  | fails
  | solved (x : S)

/-- Exceptions leaving `dc_analysis`. -/
inductive SErr where
  | valueError      -- unbounded stepping, or refused by the axis constructor
  | zeroDivision    -- `step = 0`
  | unbound         -- `solved` read before assignment
  | fromOp          -- raised by the operating point
  | exit            -- `sys.exit(1)` (see Model.DcFront)
  | index           -- `IndexError` (see Model.DcFront)
  deriving DecidableEq, Repr

/-- State of the sweep: value of the source, `x`, `solved`, the recorded points (value and
solution) and the values tried, both in order. -/
structure State (K S : Type) where
  dc : K
  x : Option S
  solved : Option Bool
  recd : List (K × S)
  tried : List K

/-- The loop over the axis, lines 565-584. Result: the state and whether the operating
point raised. -/
def loop {K S : Type} (skip : Bool) (op : Nat → K → Option S → Outcome S) :
    Nat → List K → State K S → State K S × Bool
  | _, [], s => (s, false)
  | k, v :: rest, s =>
    let s := { s with dc := v, tried := s.tried ++ [v] }
    match op k v s.x with
    | .raises => (s, true)
    | .fails =>
      if skip then loop skip op (k + 1) rest { s with x := none }
      else ({ s with x := none, solved := some false }, false)
    | .solved x =>
      loop skip op (k + 1) rest
        { s with x := some x, solved := some true, recd := s.recd ++ [(v, x)] }

/-- Result of the analysis: value of the source afterwards, the values at which an
operating point was computed, and the returned points or `None` or the exception. -/
structure Result (K S : Type) where
  dc : K
  tried : List K
  out : Except SErr (Option (List (K × S)))

/-- `dc_analysis` with a linear sweep. `dc0` is the DC value of the source before. -/
def dcAnalysis {K S : Type} [Field K] [LinearOrder K] [FloorSemiring K] (skip : Bool) (op : Nat → K → Option S → Outcome S)
    (start stop step dc0 : K) (x0 : Option S) : Result K S :=
  if (stop - start) * step < 0 then ⟨dc0, [], .error .valueError⟩
  else if step = 0 then ⟨dc0, [], .error .zeroDivision⟩
  else
    let points := (stop - start) / step + 1
    match linInit start stop points with
    | none => ⟨dc0, [], .error .valueError⟩
    | some a =>
      let values := collect linNext (⌈points⌉₊ + 2) a
      let (s, raised) := loop skip op 0 values ⟨dc0, x0, none, [], []⟩
      if raised then ⟨s.dc, s.tried, .error .fromOp⟩
      else match s.solved with
        | none => ⟨s.dc, s.tried, .error .unbound⟩
        | some b => ⟨dc0, s.tried, .ok (if b then some s.recd else none)⟩

end Verif.Sweep
