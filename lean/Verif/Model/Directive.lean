import Verif.Model.Small

/-!
Model of the binding of tokens to parameters: `parse_single_analysis`
(netlist_parser.py:1470-1541) and `parse_time_function` (1177-1238), which share the loop,
with the specifications of ac.py:110-143, dc_analysis.py:64-124, transient.py:68-117,
pss.py:36-80, pz.py:75-100, symbolic.py:57-83 and time_functions.py:156-396.

Python dictionaries are functions from keys to optional values; a value is `none` (Python's
`None`) or a parsed value. All exceptions are `NetlistParseError` except where noted.
-/

namespace Verif.Directive
open Verif.Small

/-- One entry of `tokens` in a specification. -/
structure Tok where
  label : Option String
  pos : Option Nat
  type : PType
  needed : Bool
  dest : String
  default : Option Val
deriving DecidableEq

/-- A dictionary of parsed parameters. -/
abbrev Dict := String → Option (Option Val)

def Dict.set (d : Dict) (k : String) (v : Option Val) : Dict :=
  fun k' => if k' = k then some v else d k'

/-- Lines 1496-1499: label and value of a token. -/
def split (token : List Char) : Option String × List Char :=
  if isParam token then
    (some (String.ofList (splitEq token).1), (splitEq token).2)
  else (none, token)

/-- The test of line 1502. -/
def fits (i : Nat) (label : Option String) (t : Tok) : Bool :=
  (label.isNone && t.pos == some i) || label == t.label

/-- The loop over the tokens, lines 1492-1514: parameters left over and the dictionary
(`none`: `NetlistParseError`). -/
def loop : List Tok → Nat → List (List Char) → Dict → Option (List Tok × Dict)
  | ps, _, [], an => some (ps, an)
  | ps, i, tok :: rest, an =>
    if tok.head? = some '*' then some (ps, an)
    else
      let (label, value) := split tok
      match ps.find? (fits i label) with
      | none => none
      | some t => match convert value t.type with
        | none => none
        | some v => loop (ps.erase t) (i + 1) rest (an.set t.dest (some v))

/-- Lines 1516-1525: missing parameters, defaults. -/
def finish (ps : List Tok) (an : Dict) : Option Dict :=
  if ps.any (fun t => t.needed) then none
  else some (ps.foldl (fun an t => an.set t.dest t.default) an)

/-- The common part of both functions. -/
def bind (spec : List Tok) (tokens : List (List Char)) (an : Dict) : Option Dict :=
  match loop spec 0 tokens an with
  | none => none
  | some (ps, an) => finish ps an

/-- Outcome of `parse_single_analysis`. -/
inductive Out where
  | ok (an : Dict)
  | parseError
  | valueError
  | typeError

/-- Python's `int()` of a number. -/
def trunc (x : ℚ) : ℤ := x.num.tdiv x.den

/-- The code for `tran`, lines 1528-1538. -/
def tranFix (an : Dict) : Out :=
  let rest : Dict := fun k => if k = "uic" then none else an k
  match an "uic" with
  | some (some (.num x)) =>
    if trunc x = 0 then .ok (rest.set "x0" none)
    else if trunc x = 1 then .ok (rest.set "x0" (some (.text "op".toList)))
    else if trunc x = 2 then .ok (rest.set "x0" (some (.text "op+ic".toList)))
    else if trunc x = 3 then .ok rest
    else .parseError
  | some (some (.text _)) => .valueError
  | some (some (.bool b)) => -- not reachable, `uic` is a number
    .ok (rest.set "x0" (if b then some (.text "op".toList) else none))
  | _ => .typeError

/-- Defaults that are Python constants of `options`. -/
def num (x : ℚ) : Option Val := some (.num x)
def txt (s : String) : Option Val := some (.text s.toList)

def specOp : List Tok :=
  [⟨some "guess", none, .bool, false, "guess", some (.bool true)⟩,
   ⟨some "ic_label", none, .str, false, "x0", none⟩]
def specDc : List Tok :=
  [⟨some "source", some 0, .str, true, "source", none⟩,
   ⟨some "start", some 1, .float, true, "start", none⟩,
   ⟨some "stop", some 2, .float, true, "stop", none⟩,
   ⟨some "step", some 3, .float, true, "step", none⟩,
   ⟨some "type", none, .str, false, "sweep_type", txt "LIN"⟩]
def specAc : List Tok :=
  [⟨some "type", some 0, .str, false, "sweep_type", txt "LOG"⟩,
   ⟨some "nsteps", some 1, .float, true, "points", none⟩,
   ⟨some "start", some 2, .float, true, "start", none⟩,
   ⟨some "stop", some 3, .float, true, "stop", none⟩]
def specTran : List Tok :=
  [⟨some "tstep", some 0, .float, true, "tstep", none⟩,
   ⟨some "tstop", some 1, .float, true, "tstop", none⟩,
   ⟨some "tstart", none, .float, false, "tstart", num 0⟩,
   ⟨some "uic", some 2, .float, false, "uic", num 0⟩,
   ⟨some "ic_label", none, .str, false, "x0", num 0⟩,
   ⟨some "method", none, .str, false, "method", none⟩]
def specPss : List Tok :=
  [⟨some "period", some 0, .float, true, "period", none⟩,
   ⟨some "points", none, .float, true, "points", none⟩,
   ⟨some "step", none, .float, false, "step", none⟩,
   ⟨some "autonomous", none, .bool, false, "autonomous", txt "0"⟩,
   ⟨some "method", none, .str, false, "method", txt "shooting"⟩]
def specSymbolic : List Tok :=
  [⟨some "tf", none, .str, false, "source", none⟩,
   ⟨some "ac", none, .bool, false, "ac_enable", some (.bool true)⟩,
   ⟨some "r0s", none, .bool, false, "r0s", some (.bool false)⟩]
def specPz : List Tok :=
  [⟨some "output", some 0, .str, false, "output_port", none⟩,
   ⟨some "input", some 1, .str, false, "input_source", none⟩,
   ⟨some "shift", some 2, .float, false, "shift", num 0⟩]

/-- time_functions.py:156-396. `inf` stands for `float('inf')` (kept as a text). -/
def specSin : List Tok :=
  [⟨some "vo", some 0, .float, true, "vo", none⟩, ⟨some "va", some 1, .float, true, "va", none⟩,
   ⟨some "freq", some 2, .float, true, "freq", none⟩,
   ⟨some "td", some 3, .float, false, "td", num 0⟩,
   ⟨some "theta", some 4, .float, false, "theta", num 0⟩]
def specExp : List Tok :=
  [⟨some "v1", some 0, .float, true, "v1", none⟩, ⟨some "v2", some 1, .float, true, "v2", none⟩,
   ⟨some "td1", some 2, .float, false, "td1", num 0⟩,
   ⟨some "tau1", some 3, .float, true, "tau1", none⟩,
   ⟨some "td2", some 4, .float, false, "td2", txt "inf"⟩,
   ⟨some "tau2", some 5, .float, false, "tau2", txt "inf"⟩]
def specPulse : List Tok :=
  [⟨some "v1", some 0, .float, true, "v1", none⟩, ⟨some "v2", some 1, .float, true, "v2", none⟩,
   ⟨some "td", some 2, .float, false, "td", num 0⟩,
   ⟨some "tr", some 3, .float, true, "tr", none⟩,
   ⟨some "tf", some 4, .float, true, "tf", none⟩,
   ⟨some "pw", some 5, .float, true, "pw", none⟩,
   ⟨some "per", some 6, .float, true, "per", none⟩]
def specSffm : List Tok :=
  [⟨some "vo", some 0, .float, true, "vo", none⟩, ⟨some "va", some 1, .float, true, "va", none⟩,
   ⟨some "fc", some 2, .float, false, "fc", none⟩,
   ⟨some "mdi", some 3, .float, true, "mdi", none⟩,
   ⟨some "fs", some 4, .float, true, "fs", none⟩,
   ⟨some "td", some 5, .float, false, "td", num 0⟩]
def specAm : List Tok :=
  [⟨some "sa", some 0, .float, true, "sa", none⟩, ⟨some "oc", some 1, .float, true, "oc", none⟩,
   ⟨some "fm", some 2, .float, true, "fm", none⟩,
   ⟨some "fc", some 3, .float, true, "fc", none⟩,
   ⟨some "td", some 4, .float, false, "td", none⟩]

/-- `specs`, netlist_parser.py:137-139. -/
def specs : String → Option (List Tok)
  | "op" => some specOp
  | "dc" => some specDc
  | "ac" => some specAc
  | "tran" => some specTran
  | "pss" => some specPss
  | "symbolic" => some specSymbolic
  | "pz" => some specPz
  | _ => none

/-- `time_fun_specs`. -/
def timeSpecs : String → Option (List Tok)
  | "sin" => some specSin
  | "exp" => some specExp
  | "pulse" => some specPulse
  | "sffm" => some specSffm
  | "am" => some specAm
  | _ => none

/-- `parse_single_analysis`, for an analysis type (lower case, without the dot) and the
remaining tokens of the line. -/
def parseAnalysis (ty : String) (tokens : List (List Char)) : Out :=
  match specs ty with
  | none => .parseError
  | some spec =>
    match bind spec tokens (fun k => if k = "type" then some (txt ty) else none) with
    | none => .parseError
    | some an =>
      if ty = "tran" then tranFix an
      else if ty = "pz" then .ok (an.set "x0" (txt "op"))
      else .ok an

end Verif.Directive
