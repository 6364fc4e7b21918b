import Verif.Model.Directive
import Verif.Model.Netlist

/-!
Model of `print_analysis` (printing.py:133-165) and of the reading of an analysis line (netlist_parser.py:1470-1491).

A description is a dictionary in the order of insertion. `g` stands for the format `%g`, `str` for Python's `str`. The
final line end is left out. A missing key raises KeyError and a text in place of a number TypeError (`failed`).
-/

namespace Verif.PrintAn
open Verif.Small Verif.Directive Verif.Netlist

abbrev An := List (String × Option Val)

/-- `an[k]` -/
def An.get (an : An) (k : String) : Option (Option Val) := (an.find? fun p => p.1 == k).map Prod.snd

/-- What is printed. -/
inductive Printed where
  | nothing
  | line (l : Line)
  | failed
deriving DecidableEq

/-- `%(k)g` -/
def An.num (an : An) (g : ℚ → Line) (k : String) : Option Line :=
  match an.get k with
  | some (some (.num x)) => some (g x)
  | _ => none

/-- `str(an[k])` -/
def An.shown (an : An) (str : Option Val → Line) (k : String) : Option Line := (an.get k).map str

/-- `k=v` -/
def entry (k : String) (v : Line) : Line := k.toList ++ '=' :: v

/-- Lines of words. -/
def joined (ws : List Line) : Line := (ws.intersperse [' ']).flatten

def ofWords : Option (List Line) → Printed
  | some ws => .line (joined ws)
  | none => .failed

/-- Lines 143-148 -/
def printOp (str : Option Val → Line) (an : An) : Printed :=
  .line (joined (".op".toList :: ((an.filter fun p => p.1 ≠ "type" ∧ p.1 ≠ "outfile" ∧ p.1 ≠ "verbose").map
    fun p => entry p.1 (str p.2))))

/-- Line 150 -/
def printDc (g : ℚ → Line) (str : Option Val → Line) (an : An) : Printed :=
  ofWords (match an.shown str "source", an.num g "start", an.num g "stop", an.num g "step", an.shown str "sweep_type" with
    | some s, some a, some b, some c, some t =>
      some [".dc".toList, s, entry "start" a, entry "stop" b, entry "step" c, entry "type" t]
    | _, _, _, _, _ => none)

/-- Lines 152-157; a method that is not a text cannot be added to one. -/
def printTran (str : Option Val → Line) (an : An) : Printed :=
  ofWords (match an.shown str "tstep", an.shown str "tstop", an.shown str "tstart", an.get "method" with
    | some a, some b, some c, some (some (.text m)) =>
      some [".tran".toList, entry "tstep" a, entry "tstop" b, entry "tstart" c, entry "method" m]
    | some a, some b, some c, some none => some [".tran".toList, entry "tstep" a, entry "tstop" b, entry "tstart" c]
    | _, _, _, _ => none)

/-- Lines 158-165 -/
def printShooting (str : Option Val → Line) (an : An) : Printed :=
  ofWords (match an.shown str "period", an.shown str "method", an.get "points", an.get "step",
      an.shown str "autonomous" with
    | some a, some m, some p, some s, some t =>
      some ([".shooting".toList, entry "period" a, entry "method" m] ++
        (if p = none then [] else [entry "points" (str p)]) ++ (if s = none then [] else [entry "step" (str s)]) ++
        ["autonomous=".toList, t])
    | _, _, _, _, _ => none)

/-- `print_analysis` -/
def printAnalysis (g : ℚ → Line) (str : Option Val → Line) (an : An) : Printed :=
  match an.get "type" with
  | none => .failed
  | some ty =>
    if ty = txt "op" then printOp str an
    else if ty = txt "dc" then printDc g str an
    else if ty = txt "tran" then printTran str an
    else if ty = txt "shooting" then printShooting str an
    else .nothing

/-- A line of a netlist, in lower case as all lines are, read by `parse_single_analysis`. -/
def readLine (l : Line) : Out :=
  match (words l).map (List.map Char.toLower) with
  | [] => .parseError
  | w :: ts => parseAnalysis (String.ofList (w.filter fun c => c ≠ '.')) ts

end Verif.PrintAn
