import Verif.Model.Op
import Verif.Model.Results
import Mathlib.Algebra.Order.Floor.Ring

/-!
Model of what is printed about an operating point: `op_solution.get_table_array` (results.py:325-337) and
`op_solution.print_short` (477-490), with the errors and the number of iterations that `dc_solve` returns beside the
solution (dc_analysis.py:248-320) and `op_analysis` hands on (640-678).

`loopE` is `Op.loopX` again, with the two further variables `error` and `tot_iterations`. Cells of a table are kept as
values, only the percentage, which is printed with `%d`, is rounded as printed. The table formatting itself (`tabulate`)
is not modelled.
-/

namespace Verif.OpTable
open Verif.Circuit Verif.Csv Verif.Results Verif.Homotopy Verif.Op Matrix

variable {K : Type} [Field K] [LinearOrder K]

/-- The variables of the loop of `dc_solve`: `error` is not bound before the first solve. -/
structure Vars (K : Type) (m : Nat) where
  x : Fin m → K
  error : Option (Fin m → K) := none
  iterations : Nat := 0

/-- One call of the Newton solver, dc_analysis.py:279-293 -/
noncomputable def attemptE {m : Nat} (o : OOpts K) (p : Newton.Problem K m) (v : Vars K m) :
    Option (Vars K m × Bool) :=
  match Newton.mdnSolver o.newton o.tol p o.maxit (some v.x) with
  | .ok r => some (⟨r.x, some r.res, v.iterations + r.iteration⟩, r.converged)
  | .error .singular => some (v, false)
  | .error .unbound => none

/-- The loop, dc_analysis.py:258-319 -/
noncomputable def loopE {m : Nat} (o : OOpts K) (c : Circ K m) (g : K) :
    Nat → State → Vars K m → Out (Vars K m)
  | 0, _, _ => .outOfFuel
  | k + 1, s, v => match choose o.meth s with
    | .error _ => .raised
    | .ok y => match attemptE o (problem c g y) v with
      | none => .raised
      | some (v', conv) => match after o.meth { s with sys := some y } conv with
        | .next s' => loopE o c g k s' v'
        | .success => .solved v'
        | .failure => .failed

/-- `dc_solve` with all it returns -/
noncomputable def dcSolveE {m : Nat} (o : OOpts K) (c : Circ K m) (g : K) (x0 : Option (Fin m → K))
    (fuel : Nat := 64) : Out (Vars K m) :=
  loopE o c g fuel (setNext o.meth init) { x := x0.getD 0 }

/-- An operating point with the errors and the number of iterations it was constructed with. -/
structure Report (K : Type) (m : Nat) where
  x : Fin m → K
  error : Option (Fin m → K)
  iterations : Nat
  gmin : K

/-- `op_analysis`, dc_analysis.py:640-678 (as `Op.opAnalysis`) -/
noncomputable def opReport {m : Nat} (o : OOpts K) (c : Circ K m) (gmin : K) (x0 : Option (Fin m → K)) :
    Option (Option (Report K m)) :=
  match dcSolveE o c gmin x0 with
  | .failed => some none
  | .solved v1 => match dcSolveE o c 0 (some v1.x) with
    | .failed => some (some ⟨v1.x, v1.error, v1.iterations, gmin⟩)
    | .solved v2 => some (some ⟨v2.x, v2.error, v1.iterations + v2.iterations, 0⟩)
    | _ => none
  | _ => none

/-! ### The table -/

/-- `'%d' % q`: the fraction is cut off -/
def percentD [FloorRing K] (q : K) : Int := if 0 ≤ q then ⌊q⌋ else ⌈q⌉

/-- a line of the table -/
structure Line (K : Type) where
  var : Word
  unit : Char
  value : K
  error : K
  percent : Int

/-- `self.errors`, filled like `self.results`, results.py:283 and 294 -/
def opErrors {α : Type} (nodes : List Word) (circ : List (Elem α)) (e : List K) : PyDict K :=
  ((opVars nodes circ).zip e).foldl (fun d p => ciUpdate d p.1 p.2) []

/-- results.py:328-336: one variable (`none`: a `KeyError`) -/
def tableLine [FloorRing K] (s : Results.OpSol K) (errors : PyDict K) (v : Word) : Option (Line K) := do
  let r ← ciGet s.results v
  let rel ← if r ≠ 0 then do
      let e ← ciGet errors v
      pure (e / r * 100)
    else pure 0
  let u ← ciGet s.units v
  let e ← ciGet errors v
  return ⟨v, u, r, e, percentD rel⟩

/-- `get_table_array` -/
def table [FloorRing K] {α : Type} (nodes : List Word) (circ : List (Elem α)) (x e : List K) : Option (List (Line K)) :=
  let s := opSolution nodes circ x
  s.vars.mapM (tableLine s (opErrors nodes circ e))

/-! ### The short form -/

/-- One pass of the loop of `print_short`, lines 481-486; the state is `(table, line)`. -/
def shortStep {β : Type} (s : List (List β) × List β) (c : β) : List (List β) × List β :=
  let line := s.2 ++ [c]
  if line.length = 5 then (s.1 ++ [line], []) else (s.1, line)

/-- `print_short`, lines 479-489, for the formatted cells -/
def printShort {β : Type} (blank : β) (cells : List β) : List (List β) :=
  let s := cells.foldl shortStep ([], [])
  if s.2.length > 0 then s.1 ++ [s.2 ++ List.replicate (5 - s.2.length) blank] else s.1

end Verif.OpTable
