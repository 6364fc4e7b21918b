import Verif.Model.Op
import Verif.Model.Csv

/-!
# What an operating point analysis prints and writes: the end of `op_analysis` (`ahkab/dc_analysis.py`), `print_result_check`
(`ahkab/printing.py`) and `op_solution.write_to_file` (`ahkab/results.py`)

Simplifications: the messages of `print_info_line` are left out (see C219; none of them is printed at verbosity 0), a report is one item
of the output, whatever its lines are (see C193), files can be opened, and there is at least one variable (a result without variables is
false as a truth value).
-/

namespace Verif.OpReport
open Verif.Csv

/-- the name that stands for the standard output -/
def std : Word := "stdout".toList

/-- an item printed on the standard output; `S` is the type of solutions -/
inductive Item (S : Type) where
  | report (s : S)
  | depends (bad : List Word)
  | within
  | latest
  | titleWith
  | titleWithout
deriving DecidableEq

/-- what is written to a file -/
inductive Content (S : Type) where
  | report (s : S)
  | data (s : S)
deriving DecidableEq

inductive Error where
  | noGmin | giveUp
deriving DecidableEq, Repr

structure World (S : Type) where
  out : List (Item S)
  err : List Error
  files : List (Word × Content S)

variable {S : Type}

def start : World S := ⟨[], [], []⟩
def World.print (w : World S) (i : Item S) : World S := { w with out := w.out ++ [i] }
def World.error (w : World S) (e : Error) : World S := { w with err := w.err ++ [e] }

/-- `print_result_check`, printing.py:483-493: the verbosity is looked at only if there is nothing to warn about -/
def resultCheck (bad : List Word) (verbose : Nat) (w : World S) : World S :=
  if bad ≠ [] then w.print (.depends bad)
  else if verbose ≠ 0 then w.print .within
  else w

/-- `write_to_file`, results.py:441-475; `own` is `self.filename`, the `outfile` of the analysis -/
def writeToFile (own filename : Option Word) (s : S) (w : World S) : World S :=
  match filename.orElse fun _ => own with
  | none => w
  | some f =>
    if f ≠ std then { w with files := w.files ++ [(f ++ "info".toList, .report s), (own.getD [], .data s)] }
    else w.print (.report s)

/-- how `dc_solve` ended with and without Gmin (the second is used only if the first gave a solution), and the variables that differ -/
structure Solved (S : Type) where
  first : Option S
  second : Option S
  bad : List Word

/-- `op_analysis`, dc_analysis.py:614-615 and 654-690 -/
def opReport (cli : Bool) (outfile : Option Word) (verbose : Nat) (r : Solved S) (w : World S) : Option S × World S :=
  let verbose := if outfile = some std then 0 else verbose
  let (sol, w) : Option S × World S := match r.first, r.second with
    | some s1, none =>
      let w := w.error .noGmin
      (some s1, if verbose ≠ 0 then writeToFile outfile (some std) s1 (w.print .latest) else w)
    | some s1, some s2 =>
      let w := resultCheck r.bad verbose w
      (some s2, if r.bad ≠ [] ∧ verbose ≠ 0 then
        writeToFile outfile (some std) s2 ((writeToFile outfile (some std) s1 (w.print .titleWith)).print .titleWithout)
        else w)
    | none, _ => (none, w.error .giveUp)
  match sol with
  | none => (none, w)
  | some s =>
    let w := if outfile ≠ some std ∧ outfile ≠ none then writeToFile outfile none s w else w
    (some s, if (verbose > 2 ∨ outfile = some std) ∧ cli = true then writeToFile outfile (some std) s w else w)

/-- `new_op`, ahkab.py:239-248, and the other functions like it: the name of the results file and the files that are removed at the end of
the session; `tmp` is the name that `NamedTemporaryFile` finds -/
def fileName (cli : Bool) (tmp : Word) (ext : Word) (outfile : Option Word) : Word × List Word :=
  if outfile = none ∨ outfile = some std then
    if cli then (std, []) else (tmp, [tmp])
  else (outfile.getD [] ++ ext, [])

end Verif.OpReport
