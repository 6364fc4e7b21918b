import Verif.Model.Circuit
import Verif.Model.Nodes

/-!
Model of building a circuit through the API: the `add_*` methods (circuit.py:465-971) and
`remove_elem` (circuit.py:1007-1076).

A call returns the circuit *after* the call (Python mutates it also when it raises) and
the exception, if any.
-/

namespace Verif.Build
open Verif.Circuit

variable {α : Type}

/-- Kinds of models, circuit.py:431-444. -/
inductive MKind where
  | ekv | mosq | diode | sw
deriving DecidableEq, Repr

/-- A circuit: node table, elements, models. circuit.py:153-160. -/
structure Ckt (α : Type) where
  nodes : Nodes.Circ := {}
  elems : List (Elem α) := []
  models : List (String × MKind) := []

/-- `self.add_node(name)`, returning the number. -/
def Ckt.addNode (c : Ckt α) (name : String) : Ckt α × Nat :=
  let r := Nodes.addNode c.nodes name
  ({ c with nodes := r.1 }, match r.2 with
    | .num n => n
    | _ => 0)

/-- `self.append(elem)` -/
def Ckt.append (c : Ckt α) (e : Elem α) : Ckt α := { c with elems := c.elems ++ [e] }

/-- `model_label in models` / `models[model_label]` -/
def Ckt.model (c : Ckt α) (label : String) : Option MKind :=
  (c.models.find? (fun m => m.1 = label)).map Prod.snd

/-- The `add_*` calls with the node names given by the user. Element data that plays no
role for node handling (areas, widths, initial conditions of devices) is left out. -/
inductive AddOp (α : Type) where
  | R (id n1 n2 : String) (value : α)
  | C (id n1 n2 : String) (value : α) (ic : Option α)
  | L (id n1 n2 : String) (value : α) (ic : Option α)
  | V (id n1 n2 : String) (s : Src α)
  | I (id n1 n2 : String) (s : Src α)
  | E (id n1 n2 sn1 sn2 : String) (value : α)
  | G (id n1 n2 sn1 sn2 : String) (value : α)
  | F (id n1 n2 source : String) (value : α)
  | H (id n1 n2 source : String) (value : α)
  | D (id n1 n2 model : String)
  | M (id nd ng ns nb model : String)
  | S (id n1 n2 sn1 sn2 model : String)

/-- two `add_node` calls -/
def Ckt.addNodes2 (c : Ckt α) (a b : String) : Ckt α × Nat × Nat :=
  let r1 := c.addNode a
  let r2 := r1.1.addNode b
  (r2.1, r1.2, r2.2)

/-- four `add_node` calls -/
def Ckt.addNodes4 (c : Ckt α) (n1 n2 n3 n4 : String) : Ckt α × Nat × Nat × Nat × Nat :=
  let r1 := c.addNodes2 n1 n2
  let r2 := r1.1.addNodes2 n3 n4
  (r2.1, r1.2.1, r1.2.2, r2.2.1, r2.2.2)

/-- The `add_*` methods. Lines: resistor circuit.py:491-498, capacitor 529-537, inductor
569-574, vsource 632-642, isource 662-672, diode 701-710, mos 743-763, cccs 796-802,
ccvs 836-842, vcvs 869-877, vccs 907-915, switch 958-971; ports of the devices from
diode.py:88,126, mosq.py:111,175, ekv.py:145,181, switch.py:112,137. -/
def add [DecidableEq α] [Zero α] (c : Ckt α) : AddOp α → Ckt α × Option Err
  | .R id n1 n2 v =>
    let (c1, a, b) := c.addNodes2 n1 n2
    if v = 0 then (c1, some .circuit) else (c1.append (.R id a b v), none)
  | .C id n1 n2 v ic =>
    if v = 0 then (c, some .circuit)
    else
      let (c1, a, b) := c.addNodes2 n1 n2
      (c1.append (.C id a b v ic), none)
  | .L id n1 n2 v ic =>
    let (c1, a, b) := c.addNodes2 n1 n2
    (c1.append (.L id a b v ic []), none)
  | .V id n1 n2 s =>
    let (c1, a, b) := c.addNodes2 n1 n2
    (c1.append (.V id a b s), none)
  | .I id n1 n2 s =>
    let (c1, a, b) := c.addNodes2 n1 n2
    (c1.append (.I id a b s), none)
  | .E id n1 n2 s1 s2 v =>
    let (c1, a, b, x, y) := c.addNodes4 n1 n2 s1 s2
    (c1.append (.E id a b x y v), none)
  | .G id n1 n2 s1 s2 v =>
    let (c1, a, b, x, y) := c.addNodes4 n1 n2 s1 s2
    (c1.append (.G id a b x y v), none)
  | .F id n1 n2 src v =>
    let (c1, a, b) := c.addNodes2 n1 n2
    (c1.append (.F id a b src v), none)
  | .H id n1 n2 src v =>
    let (c1, a, b) := c.addNodes2 n1 n2
    (c1.append (.H id a b src v), none)
  | .D id n1 n2 m =>
    let (c1, a, b) := c.addNodes2 n1 n2
    match c1.model m with
    | none => (c1, some .model)
    | some _ => (c1.append (.NL id a b none [(a, b)] [(a, b)]), none)
  | .M id nd ng ns nb m =>
    let (c1, d, g, s, b) := c.addNodes4 nd ng ns nb
    match c1.model m with
    | none => (c1, some .model)
    | some .ekv => (c1.append (.NL id d s none [(d, b), (g, b), (s, b)] [(d, s)]), none)
    | some .mosq => (c1.append (.NL id d s none [(d, s), (g, s), (b, s)] [(d, s)]), none)
    | some _ => (c1, some .exn)
  | .S id n1 n2 s1 s2 m =>
    let (c1, a, b, x, y) := c.addNodes4 n1 n2 s1 s2
    match c1.model m with
    | none => (c1, some .model)
    | some _ => (c1.append (.NL id a b (some (x, y)) [(a, b), (x, y)] [(a, b)]), none)

/-- `hasattr(elem, attr) and e.attr == n`: `own` tells whether the removed element has the
attribute, `x` is the attribute of the other one (`none`: reading it raises
`AttributeError`). -/
def attrEq (own : Bool) (x : Option Nat) (n : Nat) : Except Err Bool :=
  if own then match x with
    | some m => .ok (m == n)
    | none => .error .attr
  else .ok false

/-- The `or` chain of circuit.py:1048-1051, evaluated left to right with short circuit. -/
def usesNode (elem e : Elem α) (n : Nat) : Except Err Bool :=
  match attrEq elem.n1?.isSome e.n1? n with
  | .error x => .error x
  | .ok true => .ok true
  | .ok false => match attrEq elem.n2?.isSome e.n2? n with
    | .error x => .error x
    | .ok true => .ok true
    | .ok false => match attrEq elem.sn1?.isSome e.sn1? n with
      | .error x => .error x
      | .ok true => .ok true
      | .ok false => attrEq elem.sn2?.isSome e.sn2? n

/-- output ports of an element -/
def oports : Elem α → List (Nat × Nat)
  | .NL _ _ _ _ _ o => o
  | _ => []

/-- ports of an element -/
def ports : Elem α → List (Nat × Nat)
  | .NL _ _ _ _ p _ => p
  | _ => []

/-- The loop over the remaining elements, circuit.py:1047-1071, for one node: is the node
kept? The output ports looked at are those of the *removed* element; the second look (the
"ports that drive them") repeats the same test and can be left out. -/
def keepNode (elem : Elem α) (n : Nat) : List (Elem α) → Except Err Bool
  | [] => .ok false
  | e :: r => match usesNode elem e n with
    | .error x => .error x
    | .ok true => .ok true
    | .ok false =>
      if elem.nonlinear && (oports elem).any (fun p => p.1 == n || p.2 == n) then .ok true
      else keepNode elem n r

/-- Candidate nodes, circuit.py:1033-1043. -/
def candidates (elem : Elem α) : List Nat :=
  let add (l : List Nat) (n : Nat) : List Nat := if n ≠ 0 ∧ n ∉ l then l ++ [n] else l
  let l1 := match elem.n1? with
    | some n => add [] n
    | none => []
  let l2 := match elem.n2? with
    | some n => add l1 n
    | none => l1
  (ports elem).foldl (fun l p => add (add l p.1) p.2) l2

/-- The loop over the candidate nodes: which ones are dropped. -/
def dropList (elem : Elem α) (rest : List (Elem α)) : List Nat → Except Err (List Nat)
  | [] => .ok []
  | n :: t => match keepNode elem n rest with
    | .error x => .error x
    | .ok k => match dropList elem rest t with
      | .error x => .error x
      | .ok l => .ok (if k then l else n :: l)

/-- `nodes_dict.pop(nodes_dict[n]); nodes_dict.pop(n)`, circuit.py:1073-1075. -/
def purge (d : Nodes.Dict) (n : Nat) : Nodes.Dict :=
  match d.get (.int n) with
  | some k => (d.pop k).pop (.int n)
  | none => d

/-- `remove_elem` called with the element at position `i`, circuit.py:1032-1075. The element
is removed before anything can raise. -/
def removeAt (c : Ckt α) (i : Nat) : Ckt α × Option Err :=
  match c.elems[i]? with
  | none => (c, some .value)
  | some elem =>
    let rest := c.elems.eraseIdx i
    match dropList elem rest (candidates elem) with
    | .error x => ({ c with elems := rest }, some x)
    | .ok l => ({ c with elems := rest, nodes := { c.nodes with dict := l.foldl purge c.nodes.dict } }, none)

/-- `remove_elem` called with a part id, circuit.py:1028-1030. -/
def removeByName (c : Ckt α) (id : String) : Ckt α × Option Err :=
  match c.elems.findIdx? (fun e => lower e.id = lower id) with
  | none => (c, some .value)
  | some i => removeAt c i

end Verif.Build
