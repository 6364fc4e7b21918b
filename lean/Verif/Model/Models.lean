import Verif.Model.Netlist
import Verif.Model.Small
import Verif.Model.OpInfo

/-!
Model of the handling of device models: `Circuit.add_model` and `remove_model` (circuit.py:411-463),
`parse_models` (netlist_parser.py:330-366), the constructor of the diode model (diode.py:302-339) and
`print_model` of the diode model (diode.py:341-350).

A model object is its kind, its name and what its constructor makes of the other keyword arguments. The
constructors themselves are a parameter `ctor` of the definitions (the diode constructor is given below, those of
the transistors in `Verif.Model.Ekv`); binding of keyword arguments is modelled here: an unknown keyword, or a
missing `name` for diodes and switches, is a `TypeError`. The argument `material` of the diode, an object, is left
out. A dictionary is the list of its items.
-/

namespace Verif.Models
open Verif.Netlist Verif.Small Verif.OpInfo

inductive Kind where
  | ekv | mosq | diode | sw
deriving DecidableEq, Repr

inductive Err where
  | parse | circuit | type | value | exn
deriving DecidableEq, Repr

/-- Keyword arguments besides `name`: ekv.py:369-372, mosq.py:432-435, diode.py:302-306, switch.py:310. -/
def Kind.keys : Kind → List String
  | .ekv => ["TYPE", "TNOM", "COX", "GAMMA", "NSUB", "PHI", "VTO", "KP", "XJ", "LAMBDA", "TOX", "VFB", "U0", "TCV",
      "BEX"]
  | .mosq => ["TYPE", "TNOM", "COX", "GAMMA", "NSUB", "PHI", "VTO", "KP", "LAMBDA", "AKP", "AVT", "TOX", "VFB", "U0",
      "TCV", "BEX"]
  | .diode => ["IS", "N", "NBV", "ISR", "NR", "RS", "CJ0", "M", "VJ", "FC", "CP", "TT", "BV", "IBV", "IKF", "KF",
      "AF", "FFE", "TEMP", "XTI", "EG", "TBV", "TRS", "TTT1", "TTT2", "TM1", "TM2"]
  | .sw => ["VT", "VH", "VON", "VOFF", "RON", "ROFF"]

/-- Is `name` a required argument? -/
def Kind.needsName : Kind → Bool
  | .diode => true
  | .sw => true
  | _ => false

/-- The name given by the transistor constructors when there is none. -/
def Kind.defaultName : Kind → Line
  | .ekv => "model_ekv0".toList
  | .mosq => "model_mosq0".toList
  | _ => []

/-- A model object; `P`: attributes other than the name. -/
structure Obj (P : Type) where
  kind : Kind
  name : Line
  attrs : P
deriving DecidableEq, Repr

abbrev Args := List (Line × Val)

def nameKey : Line := "name".toList

/-- The arguments other than `name`. -/
def others (a : Args) : Args := a.filter fun p => p.1 ≠ nameKey

/-- May this keyword be given? -/
def Kind.accepts (k : Kind) (key : Line) : Bool := key = nameKey || k.keys.contains (String.ofList key)

/-- The name, when it is given: any object will do, texts are meant. -/
def nameOf (k : Kind) (a : Args) : Line :=
  match dget a nameKey with
  | some (.text s) => s
  | _ => k.defaultName

/-- `cls(**args)` -/
def call {P : Type} (ctor : Kind → Args → Except Err P) (k : Kind) (a : Args) : Except Err (Obj P) :=
  if a.any fun p => !k.accepts p.1 then .error .type
  else if k.needsName && (dget a nameKey).isNone then .error .type
  else match ctor k (others a) with
    | .error e => .error e
    | .ok p => .ok ⟨k, nameOf k a, p⟩

abbrev Store (P : Type) := List (Line × Obj P)

/-- The chain on `model_type` of `add_model`. -/
def apiKind (t : Line) : Option Kind :=
  if t = "ekv".toList then some .ekv
  else if t = "mosq".toList then some .mosq
  else if t = "diode".toList then some .diode
  else if t = "sw".toList then some .sw
  else none

/-- What a call of `add_model` leaves: the models, the caller's dictionary of parameters, and the exception. -/
structure Added (P : Type) where
  models : Store P
  args : Args
  err : Option Err

/-- `add_model`, circuit.py:430-449. -/
def addModel {P : Type} (ctor : Kind → Args → Except Err P) (ms : Store P) (t label : Line) (a : Args) : Added P :=
  let a' := if (dget a nameKey).isNone then dput a nameKey (.text label) else a
  match apiKind t with
  | none => ⟨ms, a', some .circuit⟩
  | some k => match call ctor k a' with
    | .error e => ⟨ms, a', some e⟩
    | .ok o => ⟨dput ms label { o with name := label }, a', none⟩

/-- `remove_model`, circuit.py:464-466. -/
def removeModel {P : Type} (ms : Store P) (label : Line) : Store P := ms.filter fun p => p.1 ≠ label

/-- The chain on `model_type` of `parse_models`. -/
def lineKind (t : Line) : Option Kind :=
  if t = "ekv".toList then some .ekv
  else if t = "mosq".toList then some .mosq
  else if t = "diode".toList ∨ t = "d".toList then some .diode
  else if t = "sw".toList then some .sw
  else none

/-- The parameters of a line, netlist_parser.py:341-345. -/
def lineArgs : List Line → Args → Except Err Args
  | [], a => .ok a
  | w :: r, a =>
    if w.head? = some '*' then .ok a
    else match paramValue w .float with
      | none => .error .parse
      | some (p, v) => lineArgs r (dput a (p.map Char.toUpper) v)

/-- The tokens of a line, netlist_parser.py:333. -/
def tokens (l : Line) : List Line := words (l.filter fun c => c ≠ '(' ∧ c ≠ ')')

/-- One line of `parse_models`. -/
def modelLine {P : Type} (ctor : Kind → Args → Except Err P) (ms : Store P) (l : Line) : Except Err (Store P) :=
  match tokens l with
  | _ :: t :: label :: rest =>
    match lineArgs rest [] with
    | .error e => .error e
    | .ok a =>
      match lineKind t with
      | none => .error .parse
      | some k =>
        match call ctor k (if k.needsName then dput a nameKey (.text label) else a) with
        | .error e => .error e
        | .ok o => .ok (dput ms label { o with name := label })
  | _ => .error .parse

/-- `parse_models` -/
def parseModels {P : Type} (ctor : Kind → Args → Except Err P) : Store P → List Line → Except Err (Store P)
  | ms, [] => .ok ms
  | ms, l :: r => match modelLine ctor ms l with
    | .error e => .error e
    | .ok ms' => parseModels ctor ms' r

/-! ### The diode model -/

/-- A float that may be infinite. -/
inductive Num where
  | fin (x : ℚ)
  | inf
deriving DecidableEq, Repr

/-- `float(v)` of what `parse_param_value_from_string` returns, or of a number. -/
def toFloat : Val → Except Err Num
  | .num x => .ok (.fin x)
  | .text s => if s = "inf".toList then .ok .inf else .error .value
  | .bool b => .ok (.fin (if b then 1 else 0))

/-- The defaults, diode.py:246-272. -/
def diodeDefault (key : String) : Num :=
  if key = "IS" then .fin (1 / 10 ^ 14)
  else if key = "NR" then .fin 2
  else if key = "M" ∨ key = "FC" then .fin (1 / 2)
  else if key = "VJ" then .fin (7 / 10)
  else if key = "BV" ∨ key = "IKF" then .inf
  else if key = "IBV" then .fin (1 / 1000)
  else if key = "N" ∨ key = "NBV" ∨ key = "AF" ∨ key = "FFE" then .fin 1
  else if key = "TEMP" then .fin (2685 / 100)
  else if key = "XTI" then .fin 3
  else if key = "EG" then .fin (111 / 100)
  else .fin 0

/-- `Celsius2Kelvin` -/
def Num.kelvin : Num → Num
  | .fin x => .fin (celsius2Kelvin x)
  | .inf => .inf

/-- What becomes of a given value: lines 308-336. -/
def diodeGiven (key : String) (x : Num) : Num := if key = "TEMP" then x.kelvin else x

/-- The value of an attribute. -/
def diodeValue (a : Args) (key : String) : Except Err Num :=
  match dget a key.toList with
  | none => .ok (diodeDefault key)
  | some v => match toFloat v with
    | .ok x => .ok (diodeGiven key x)
    | .error e => .error e

/-- The attributes as a list; `float` is applied in this order. -/
def diodeAttrs (a : Args) : List String → Except Err (List (String × Num))
  | [] => .ok []
  | key :: r =>
    match diodeValue a key with
    | .error e => .error e
    | .ok x => match diodeAttrs a r with
      | .error e => .error e
      | .ok l => .ok ((key, x) :: l)

/-- The constructor of the diode model. -/
def diodeCtor (a : Args) : Except Err (List (String × Num)) := diodeAttrs a Kind.diode.keys

/-- The parameters printed by `print_model`, in order. -/
def printed : List String :=
  ["IS", "N", "ISR", "NR", "RS", "CJ0", "M", "VJ", "FC", "CP", "TT", "BV", "IBV", "KF", "AF", "FFE", "TEMP", "XTI",
    "EG", "TBV", "TRS", "TTT1", "TTT2", "TM1", "TM2"]

/-- `print_model` of the diode model; `fmt` is `%g`. -/
def printDiode (fmt : Num → Line) (o : Obj (List (String × Num))) : Line :=
  (((".model".toList :: "diode".toList :: o.name ::
    printed.map fun key => key.toList ++ '=' :: fmt ((dget o.attrs key).getD (.fin 0))).intersperse [' ']).flatten)

end Verif.Models
