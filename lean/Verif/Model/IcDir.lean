import Verif.Model.Small
import Verif.Model.Ic
import Verif.Model.Run
import Verif.Model.Netlist

/-!
Model of initial conditions in netlists: `parse_ic_directive` (netlist_parser.py:1671-1699), `parse_ics` (1418-1425), the selection of
analyses in `parse_analysis` (1445-1449) and the first half of `_handle_netlist_ics` (ahkab.py:962-966), which fills the dictionary
`_x0s`.

Simplifications: `_x0s` has texts as keys (`Run.X0s`); an entry under a number, made by `name=1`, is found by no analysis, since those
look up texts (ahkab.py:968), and is left out.
-/

namespace Verif.IcDir
open Verif.Small

abbrev Text := List Char

/-- Exceptions: `NetlistParseError`, `ValueError`, `KeyError`. -/
inductive Err where
  | parse | value | key
deriving DecidableEq, Repr

/-- `ic_dict.update({label: value})` -/
def put (d : List (Text × ℚ)) (k : Text) (v : ℚ) : List (Text × ℚ) :=
  if d.any fun p => p.1 == k then d.map fun p => if p.1 = k then (k, v) else p else d ++ [(k, v)]

/-- `convert_units` of a value that `parse_param_value_from_string` has treated already; booleans do not occur. -/
def toNumber : Val → Except Err ℚ
  | .num x => .ok x
  | .text s => match Units.convertUnits s with
    | .ok x => .ok x
    | .error .value => .error .value
    | .error .parse => .error .parse
  | .bool _ => .error .value

/-- The loop of `parse_ic_directive`. -/
def loop : List Text → Option Val → List (Text × ℚ) → Except Err (Val × List (Text × ℚ))
  | [], none, _ => .error .parse
  | [], some n, d => .ok (n, d)
  | tok :: rest, name, d =>
    if tok.head? = some '*' then
      match name with
      | none => .error .parse
      | some n => .ok (n, d)
    else
      match paramValue tok .float with
      | none => .error .parse
      | some (label, v) =>
        if label = "name".toList ∧ name = none then loop rest (some v) d
        else match toNumber v with
          | .error e => .error e
          | .ok x => loop rest name (put d label x)

/-- `parse_ic_directive` -/
def parseIc (line : Text) : Except Err (Val × List (Text × ℚ)) := loop ((Netlist.words line).drop 1) none []

/-- Is the line taken by `parse_ics` (and left out by `parse_analysis`)? -/
def isIc (line : Text) : Bool := line.take 3 == ".ic".toList

/-- `parse_ics` -/
def parseIcs : List Text → Except Err (List (Val × List (Text × ℚ)))
  | [] => .ok []
  | l :: rest =>
    if isIc l then
      match parseIc l with
      | .error e => .error e
      | .ok x => (parseIcs rest).map fun xs => x :: xs
    else parseIcs rest

/-- Lines handed to `parse_single_analysis`. -/
def analyses (lines : List Text) : List Text := lines.filter fun l => l.head? == some '.' && !isIc l

/-- What is left of `_x0s.update({ic_label: x})`. -/
def keep {X : Type} (d : Run.X0s X) : Val → X → Run.X0s X
  | .text s, x => d.set (String.ofList s) x
  | _, _ => d

/-- `_handle_netlist_ics` with an empty list of analyses: the dictionary after it and the exception. `build`: `new_x0`. -/
def store {X : Type} (build : List (Text × ℚ) → Except Err X) : Run.X0s X → List (Val × List (Text × ℚ)) → Run.X0s X × Option Err
  | d, [] => (d, none)
  | d, (n, ics) :: rest =>
    match build ics with
    | .error e => (d, some e)
    | .ok x => store build (keep d n x) rest

/-- `new_x0` -/
def build (toInt : Text → Option Nat) (nv : Nat) (vde : List Text) (ics : List (Text × ℚ)) : Except Err (Nat → ℚ) :=
  match Ic.buildX0 toInt nv vde ics with
  | .ok x => .ok x
  | .error .key => .error .key
  | .error .value => .error .value

/-- Lines 939-940 of `main`: the dictionary for the analyses. -/
def prepare {X : Type} (build : List (Text × ℚ) → Except Err X) (d : Run.X0s X) (lines : List Text) : Run.X0s X × Option Err :=
  match parseIcs lines with
  | .error e => (d, some e)
  | .ok ics => store build d ics

end Verif.IcDir
