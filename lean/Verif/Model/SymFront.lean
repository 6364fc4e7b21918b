import Verif.Model.Circuit

/-!
The end of `symbolic_analysis` (symbolic.py:179-213), from the call of `sympy.solve` on, and the printing functions it calls
(printing.py:270-326).

`V` are names of variables, `E` expressions, `T` transfer functions (the dictionaries made by `calculate_gains`). What `sympy.solve` returns
is an input: a dictionary, or a list, which is empty if the equations have no solution. Dictionaries are lists of pairs with different
keys. Printed lines are not modelled, only whether printing raises.
-/

namespace Verif.SymFront
open Verif.Circuit (Err)

/-- The interpreter, `options.cli`. -/
structure Env where
  py3 : Bool
  cli : Bool

/-- What `sympy.solve` returns. -/
inductive Solved (V E : Type) where
  | dict (l : List (V × E))
  | list (l : List E)

/-- `keys.sort(lambda x, y: cmp(str(x), str(y)))`: the method takes no positional argument in Python 3. -/
def sortKeys (env : Env) : Except Err Unit := if env.py3 then .error .type else .ok ()

/-- `print_symbolic_results` and `print_symbolic_transfer_functions`: the keys are sorted, then every item is printed. -/
def printItems (env : Env) : Except Err Unit := sortKeys env

/-- A `symbolic_solution`: its items and its file. -/
structure Sol (V X : Type) where
  items : List (V × X)
  outfile : Option String

/-- The second thing returned: None, the empty dictionary, which is not made into a result, or a result. -/
inductive Tfs (V T : Type) where
  | none
  | empty
  | sol (s : Sol V T)

/-- `outfile += ".tfs"`, lines 209-211. -/
def tfsFile : Option String → Option String
  | none => none
  | some f => if f = "" ∨ f = "stdout" then some f else some (f ++ ".tfs")

/-- From the solution on. `subsG` is `expr.subs(subs_g)`, `gain` the entry made by `calculate_gains` for a variable, `source` the name of the
source if one is given. The warning of line 187 is the second component of the result. -/
def finish {V E T : Type} (env : Env) (subsG : E → E) (gain : String → V → E → V × T) (source outfile : Option String)
    (solved : Solved V E) : Except Err ((Sol V E × Tfs V T) × Bool) :=
  match solved with
  | .list _ => .error .attr
  | .dict l => do
    let sol := l.map fun p => (p.1, subsG p.2)
    let warn := sol.isEmpty
    if !warn && env.cli then printItems env
    let tfs ← match source with
      | none => .ok none
      | some s => do
        let g := sol.map fun p => gain s p.1 p.2
        if env.cli then printItems env
        .ok (some g)
    let tsol : Tfs V T := match tfs with
      | none => .none
      | some [] => .empty
      | some g => .sol ⟨g, tfsFile outfile⟩
    .ok ((⟨sol, outfile⟩, tsol), warn)

end Verif.SymFront
