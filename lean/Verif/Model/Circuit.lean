import Mathlib.Algebra.Field.Basic
import Mathlib.Data.String.Basic

/-!
Model of circuit elements and of the look-up of voltage-defined elements.

Values live in an arbitrary type `α` (a field where arithmetic is needed): floating
point is not modelled. Part ids are strings; `str.upper()` / `str.lower()` act
character-wise on ASCII letters only (Python's are Unicode-aware); the results are
kept as character lists since they are only compared.
-/

namespace Verif.Circuit

/-- `s.upper()` -/
def upper (s : String) : List Char := s.toList.map Char.toUpper

/-- `s.lower()` -/
def lower (s : String) : List Char := s.toList.map Char.toLower

/-- Exceptions that the modelled functions can raise. -/
inductive Err where
  | value | index | type | attr | circuit | model | mutual | key | exn
deriving DecidableEq, Repr

/-- Independent source data, components/sources/VSource.py:50-63 and ISource.py:49-61.
`ac` stands for the phasor `abs_ac*exp(j*arg_ac)` (`none`: `abs_ac is None`);
`fn` is `_time_function`, which may be called with `time=None`. -/
structure Src (α : Type) where
  dc : Option α := none
  ac : Option α := none
  timeDep : Bool := false
  fn : Option (Option α → α) := none

/-- `VSource.V(time)` VSource.py:76-98, `ISource.I(time)` ISource.py:75-102
(the result `none` is Python's `None`, the DC value of a source without one). -/
def Src.eval {α : Type} (s : Src α) (time : Option α) : Option α :=
  match s.timeDep, s.fn with
  | true, some f =>
    if time.isNone && s.dc.isSome then s.dc else some (f time)
  | _, _ => s.dc

/-- `InductorCoupling`, components/Inductor.py:75-120. -/
structure Coupling (α : Type) where
  id : String
  L1 : String
  L2 : String
  k : α
  M : α

/-- `InductorCoupling.get_other_inductor`, components/Inductor.py:125-133. -/
def Coupling.other {α : Type} (c : Coupling α) (sel : String) : Except Err String :=
  if upper sel = upper c.L1 then .ok c.L2
  else if upper sel = upper c.L2 then .ok c.L1
  else .error .mutual

/-- Circuit elements (components/*.py, diode.py, mosq.py, ekv.py, switch.py).
`NL` stands for any non-linear device: its terminals `n1`, `n2`, its optional sense
nodes (`sn1`/`sn2`, switches), its `ports` and its output ports. -/
inductive Elem (α : Type) where
  | R (id : String) (n1 n2 : Nat) (value : α)
  | C (id : String) (n1 n2 : Nat) (value : α) (ic : Option α)
  | L (id : String) (n1 n2 : Nat) (value : α) (ic : Option α) (coup : List (Coupling α))
  | K (c : Coupling α)
  | V (id : String) (n1 n2 : Nat) (s : Src α)
  | I (id : String) (n1 n2 : Nat) (s : Src α)
  | E (id : String) (n1 n2 sn1 sn2 : Nat) (alpha : α)
  | G (id : String) (n1 n2 sn1 sn2 : Nat) (alpha : α)
  | F (id : String) (n1 n2 : Nat) (src : String) (alpha : α)
  | H (id : String) (n1 n2 : Nat) (src : String) (alpha : α)
  | NL (id : String) (n1 n2 : Nat) (sense : Option (Nat × Nat))
      (ports oports : List (Nat × Nat))

variable {α : Type}

/-- `elem.part_id` -/
def Elem.id : Elem α → String
  | .R i .. | .C i .. | .L i .. | .V i .. | .I i .. | .E i .. | .G i .. | .F i .. | .H i ..
  | .NL i .. => i
  | .K c => c.id

/-- `is_elem_voltage_defined`, circuit.py:1150-1168 (no built-in element sets the
attribute `is_voltage_defined`). -/
def Elem.vde : Elem α → Bool
  | .V .. | .E .. | .H .. | .L .. => true
  | _ => false

/-- `hasattr(elem, 'n1')` and `elem.n1` together: couplings have no terminals. -/
def Elem.n1? : Elem α → Option Nat
  | .R _ n .. | .C _ n .. | .L _ n .. | .V _ n .. | .I _ n .. | .E _ n .. | .G _ n ..
  | .F _ n .. | .H _ n .. | .NL _ n .. => some n
  | .K _ => none

/-- `elem.n2`, see `n1?`. -/
def Elem.n2? : Elem α → Option Nat
  | .R _ _ n .. | .C _ _ n .. | .L _ _ n .. | .V _ _ n .. | .I _ _ n .. | .E _ _ n ..
  | .G _ _ n .. | .F _ _ n .. | .H _ _ n .. | .NL _ _ n .. => some n
  | .K _ => none

/-- `hasattr(elem, 'sn1')` and `elem.sn1` (EVSource, GISource and switches). -/
def Elem.sn1? : Elem α → Option Nat
  | .E _ _ _ s _ _ | .G _ _ _ s _ _ => some s
  | .NL _ _ _ s _ _ => s.map Prod.fst
  | _ => none

/-- `elem.sn2`, see `sn1?`. -/
def Elem.sn2? : Elem α → Option Nat
  | .E _ _ _ _ s _ | .G _ _ _ _ s _ => some s
  | .NL _ _ _ s _ _ => s.map Prod.snd
  | _ => none

/-- `elem.is_nonlinear` -/
def Elem.nonlinear : Elem α → Bool
  | .NL .. => true
  | _ => false

/-- The loop of `Circuit.find_vde_index`, circuit.py:1101-1113. -/
def findVdeIndexAux (key : List Char) : List (Elem α) → Nat → Except Err Nat
  | [], _ => .error .value
  | e :: r, k =>
    if e.vde then
      if upper e.id = key then .ok k else findVdeIndexAux key r (k + 1)
    else findVdeIndexAux key r k

/-- `Circuit.find_vde_index`, circuit.py:1078-1118. -/
def findVdeIndex (circ : List (Elem α)) (partId : String) : Except Err Nat :=
  findVdeIndexAux (upper partId) circ 0

/-- The loop of `Circuit.find_vde`, circuit.py:1135-1145. -/
def findVdeAux (index : Int) : List (Elem α) → Int → Except Err (Elem α)
  | [], _ => .error .index
  | e :: r, ni =>
    if e.vde then
      if index = ni then .ok e else findVdeAux index r (ni + 1)
    else findVdeAux index r ni

/-- `Circuit.find_vde`, circuit.py:1120-1146; `nv` is the number of nodes
(`len(nodes_dict)/2`, an exact integer there). -/
def findVde (circ : List (Elem α)) (nv : Nat) (index : Int) : Except Err (Elem α) :=
  findVdeAux (index - nv + 1) circ 0

/-- `Circuit.get_elem_by_name`, circuit.py:388-409. -/
def getElemByName (circ : List (Elem α)) (partId : String) : Except Err (Elem α) :=
  match circ.find? (fun e => lower e.id = lower partId) with
  | some e => .ok e
  | none => .error .value

/-- `Circuit.has_duplicate_elem`, circuit.py:370-382: `len(set(ids)) != len(ids)`. -/
def hasDuplicateElem (circ : List (Elem α)) : Bool :=
  ((circ.map Elem.id).dedup.length != (circ.map Elem.id).length)

end Verif.Circuit
