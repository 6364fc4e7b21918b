import Mathlib.Data.Rat.Defs
import Mathlib.Logic.Function.Basic
import Mathlib.Data.List.Basic

/-!
Model of `build_x0_from_user_supplied_ic` (dc_analysis.py:1072-1123) and `modify_x0_for_ic`
(1126-1190).

Vectors are functions from indices to numbers together with their length. The circuit is given by
the map from node names to numbers (`ext_node_to_int`), the number of nodes, and its elements in
order, reduced to what the functions look at.
-/

namespace Verif.Ic

/-- Exceptions: unknown node, unknown element (`ValueError` of `list.index`), label that is not
understood. -/
inductive Err where
  | key | value
deriving DecidableEq, Repr

abbrev Text := List Char

/-- `\s` (ASCII). -/
def blank (c : Char) : Bool := c.isWhitespace

/-- `[a-z0-9]` with `re.IGNORECASE` (ASCII). -/
def alnum (c : Char) : Bool := c.isAlphanum

/-- The match of `X\s*\(\s*([a-z0-9]+)\s*\)` at the beginning of a text: the group. -/
def matchHere (letter : Char) : Text → Option Text
  | [] => none
  | c :: r =>
    if c.toLower ≠ letter then none
    else
      match r.dropWhile blank with
      | '(' :: r =>
        let r := r.dropWhile blank
        let name := r.takeWhile alnum
        if name = [] then none
        else
          match (r.dropWhile alnum).dropWhile blank with
          | ')' :: _ => some name
          | _ => none
      | _ => none

/-- `regex.search`: the group of the first match. -/
def search (letter : Char) : Text → Option Text
  | [] => none
  | c :: r =>
    match matchHere letter (c :: r) with
    | some g => some g
    | none => search letter r

def lower (s : Text) : Text := s.map Char.toLower

/-- Position of a name in a list (`list.index`). -/
def indexOf (x : Text) : List Text → Option Nat
  | [] => none
  | y :: r => if y = x then some 0 else (indexOf x r).map (· + 1)

/-- The loop of `build_x0_from_user_supplied_ic`. `toInt`: numbers of the nodes; `nv`: number of
nodes with ground; `vde`: lower-case ids of the voltage-defined elements. -/
def fill (toInt : Text → Option Nat) (nv : Nat) (vde : List Text) :
    List (Text × ℚ) → (Nat → ℚ) → Except Err (Nat → ℚ)
  | [], x => .ok x
  | (label, value) :: rest, x =>
    match search 'v' label with
    | some node =>
      match toInt node with
      | none => .error .key
      | some n => fill toInt nv vde rest (Function.update x n value)
    | none =>
      match search 'i' label with
      | some name =>
        match indexOf (lower name) vde with
        | none => .error .value
        | some k => fill toInt nv vde rest (Function.update x (nv + k) value)
      | none => .error .value

/-- `build_x0_from_user_supplied_ic`; the result has `nv - 1 + vde.length` entries. -/
def buildX0 (toInt : Text → Option Nat) (nv : Nat) (vde : List Text) (ics : List (Text × ℚ)) :
    Except Err (Nat → ℚ) :=
  match fill toInt nv vde ics (fun _ => 0) with
  | .error e => .error e
  | .ok x => .ok fun k => x (k + 1)

/-- What `modify_x0_for_ic` sees of an element: a capacitor or diode, an inductor, another
voltage-defined element, any other element. -/
inductive Item where
  | cap (n1 n2 : Nat) (ic : Option ℚ)
  | ind (ic : Option ℚ)
  | vde
  | other
deriving DecidableEq, Repr

def Item.isVde : Item → Bool
  | .ind _ => true
  | .vde => true
  | _ => false

/-- Row `n - 1` of a vector with `len` entries; row -1 is the last one. -/
def row (len n : Nat) : Nat := if n = 0 then len - 1 else n - 1

/-- The loop over capacitors and diodes, lines 1168-1171. An initial condition of zero counts as
none. -/
def caps (len : Nat) : List Item → (Nat → ℚ) → Nat → ℚ
  | [], x => x
  | .cap n1 n2 (some v) :: rest, x =>
    if v = 0 then caps len rest x
    else caps len rest (Function.update x (row len n1) (x (row len n2) + v))
  | _ :: rest, x => caps len rest x

/-- The loop over voltage-defined elements, lines 1174-1176; `k`: the row of the next one. -/
def inds : List Item → Nat → (Nat → ℚ) → Nat → ℚ
  | [], _, x => x
  | .ind (some v) :: rest, k, x =>
    if v = 0 then inds rest (k + 1) x
    else inds rest (k + 1) (Function.update x k v)
  | e :: rest, k, x => inds rest (if e.isVde then k + 1 else k) x

/-- `modify_x0_for_ic`; `nv`: number of nodes with ground. -/
def modifyX0 (nv : Nat) (items : List Item) (x : Nat → ℚ) : Nat → ℚ :=
  let len := nv - 1 + (items.filter Item.isVde).length
  inds items (nv - 1) (caps len items x)

end Verif.Ic
