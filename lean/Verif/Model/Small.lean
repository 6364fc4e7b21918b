import Verif.Model.Circuit
import Verif.Model.Units
import Mathlib.Algebra.Field.Rat

/-!
Models of small helpers: `ticker` (ticker.py:27-80), the temperature conversions
(utilities.py:381-390), the `value`/`g` properties of resistors
(components/Resistor.py:41-68), `convert_boolean` (netlist_parser.py:1652-1668),
`is_valid_value_param_string` (1544-1561), `convert` (1564-1600) and
`parse_param_value_from_string` (1603-1644).
-/

namespace Verif.Small

/-! ### Ticker -/

/-- Attributes of a ticker; there are four frames. -/
structure Ticker where
  index : Nat := 0
  step : Nat := 0
  display : Bool := false
  inc : Nat := 10
deriving DecidableEq, Repr

/-- `len(self.progress)` -/
def frames : Nat := 4

/-- Calls on a ticker. -/
inductive TOp where
  | step | hide | hideIf (b : Bool) | display | displayIf (b : Bool) | reset
deriving DecidableEq, Repr

/-- `step`, lines 45-60 (`increments_for_step = 0` would raise; excluded by the theorems). -/
def Ticker.tick (t : Ticker) : Ticker :=
  if !t.display then t
  else if (t.index + 1) % t.inc = 0 then
    { t with step := if (t.step + 1) % frames = 0 then 0 else t.step + 1, index := 0 }
  else { t with index := t.index + 1 }

def Ticker.apply (t : Ticker) : TOp → Ticker
  | .step => t.tick
  | .hide => { t with display := false }
  | .hideIf b => if b then { t with display := false } else t
  | .display => { t with display := true }
  | .displayIf b => if b then { t with display := true } else t
  | .reset => { t with step := 0, index := 0 }

/-- Indices of the frames that are written to the screen by a call: `self.progress[i]`. -/
def Ticker.shown (t : Ticker) : TOp → Option Nat
  | .step => if t.display ∧ (t.index + 1) % t.inc = 0 then some t.tick.step else none
  | .display => some t.step
  | .displayIf b => if b then some t.step else none
  | _ => none

/-- State after some calls and the frames shown, in order. -/
def Ticker.run (t : Ticker) : List TOp → Ticker × List Nat
  | [] => (t, [])
  | o :: os =>
    let r := (t.apply o).run os
    (r.1, (t.shown o).toList ++ r.2)

/-! ### Temperatures -/

/-- `Celsius2Kelvin` -/
def celsius2Kelvin (c : ℚ) : ℚ := c + 27315 / 100

/-- `Kelvin2Celsius` -/
def kelvin2Celsius (k : ℚ) : ℚ := k - 27315 / 100

/-! ### Resistor -/

/-- `_value` and `_g` -/
structure Res where
  value : ℚ
  g : ℚ
deriving DecidableEq, Repr

inductive ROp where
  | setValue (v : ℚ)
  | setG (g : ℚ)
deriving DecidableEq, Repr

/-- `__init__` (`none`: `ZeroDivisionError`). -/
def Res.init (v : ℚ) : Option Res := if v = 0 then none else some ⟨v, 1 / v⟩

/-- The setters: the assigned attribute is written before the division that may raise. The
flag tells whether it raised. -/
def Res.set (r : Res) : ROp → Res × Bool
  | .setValue v => if v = 0 then ({ r with value := v }, true) else (⟨v, 1 / v⟩, false)
  | .setG g => if g = 0 then ({ r with g := g }, true) else (⟨1 / g, g⟩, false)

/-! ### Parameters -/

/-- `convert_boolean` of a string (`none`: `NetlistParseError`). -/
def convertBoolean (s : String) : Option Bool :=
  if s = "no" ∨ s = "false" ∨ s = "0" then some false
  else if s = "yes" ∨ s = "true" ∨ s = "1" then some true
  else none

/-- `is_valid_value_param_string` -/
def isParam (s : List Char) : Bool := (Units.strip s).count '=' == 1

/-- Type of a parameter in a specification. -/
inductive PType where
  | float | str | bool
deriving DecidableEq, Repr

/-- A parsed value: a number, a text or a boolean. -/
inductive Val where
  | num (x : ℚ)
  | text (s : List Char)
  | bool (b : Bool)
deriving DecidableEq, Repr

/-- `convert` with `raise_exception=False`: a number that cannot be parsed stays text; an
empty number and a wrong boolean raise `NetlistParseError` (`none`). -/
def convert (s : List Char) : PType → Option Val
  | .float => match Units.convertUnits s with
    | .ok x => some (.num x)
    | .error .value => some (.text s)
    | .error .parse => none
  | .str => some (.text s)
  | .bool => (convertBoolean (String.ofList s)).map .bool

/-- `s.split('=')` for a string with exactly one `=`. -/
def splitEq (s : List Char) : List Char × List Char :=
  (s.takeWhile (· ≠ '='), (s.dropWhile (· ≠ '=')).drop 1)

/-- `parse_param_value_from_string` -/
def paramValue (s : List Char) (t : PType) : Option (List Char × Val) :=
  if !isParam s then some (s, .text [])
  else
    let (p, v) := splitEq (Units.strip s)
    (convert v t).map fun x => (p, x)

end Verif.Small
