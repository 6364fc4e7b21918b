import Verif.Model.Parse

/-!
Model of subcircuits: `parse_sub_declaration` (netlist_parser.py:1699-1726), `parse_sub_instance`
(1729-1791), `_circuit_wrapper` (circuit.py:1215-1272), and `main_netlist_parser` (278-316) with
subcircuit calls.

A wrapper translates the name of a node and hands it to the circuit, or wrapper, it wraps. The
model applies the translation to the elements an instance returns; elements keep external names,
so this is the same. The table of a wrapper also remembers the translations it made, which changes
nothing. A parser that calls itself without end (a subcircuit that contains itself) is cut off by
`fuel` (Python: `RecursionError`).
-/

namespace Verif.Subckt
open Verif.Small Verif.Netlist Verif.Parse

/-- Exceptions: those of the parsers, or too deep recursion. -/
inductive SErr where
  | elem (e : PErr) | parse | index | recursion
deriving DecidableEq, Repr

/-- `circuit.subckt`; the code as words. -/
structure Sub where
  name : Line
  ports : List Line
  code : List (List Line)
deriving DecidableEq, Repr

/-- The names of the ports on a declaration line (`none`: refused). -/
def declPorts : List Line → Option (List Line)
  | [] => some []
  | w :: rest =>
    if w.head? = some '0' then none
    else if w.head? = some '*' then some []
    else (declPorts rest).map (w :: ·)

/-- `parse_sub_declaration`; the first line is known to start with `.subckt`. -/
def declare : List (List Line) → Except SErr Sub
  | (_ :: name :: ports) :: code =>
    match declPorts ports with
    | none => .error .parse
    | some p => .ok { name := name, ports := p, code := code }
  | _ => .error .index

/-- `dict.update({k: v})` on a dictionary written as a list of pairs. -/
def put (d : List (Line × Line)) (k v : Line) : List (Line × Line) :=
  (k, v) :: d.filter fun p => p.1 ≠ k

def look (d : List (Line × Line)) (k : Line) : Option Line :=
  (d.find? fun p => p.1 = k).map Prod.snd

/-- The parameters of a call, up to a comment. -/
def callParams : List Line → List (Line × Line) → List (Line × Line)
  | [], d => d
  | w :: rest, d =>
    if w.head? = some '*' then d
    else
      match paramValue w .str with
      | some (p, .text v) => callParams rest (put d p v)
      | _ => callParams rest d

/-- A wrapper, circuit.py:1257-1262. -/
structure Wrapper where
  conns : List (Line × Line)
  pre : Line

def wrapper (conns : List (Line × Line)) (name label : Line) : Wrapper where
  conns := put conns ['0'] ['0']
  pre := label ++ '-' :: (name ++ ['-'])

/-- `_circuit_wrapper.add_node`, the name handed on. -/
def Wrapper.node (w : Wrapper) (n : Line) : Line :=
  match look w.conns n with
  | some x => x
  | none => w.pre ++ n

/-- The new id of an element, lines 1787-1789 (ids are not empty). -/
def Wrapper.id (w : Wrapper) (i : Line) : Line := i.take 1 ++ '-' :: (w.pre ++ i.drop 1)

/-- An element seen through a wrapper. Only the nodes and the id change: not the sources named by
current-controlled sources, nor the inductors of a coupling. -/
def Wrapper.elem (w : Wrapper) : PElem → PElem
  | .R i a b v => .R (w.id i) (w.node a) (w.node b) v
  | .C i a b v ic => .C (w.id i) (w.node a) (w.node b) v ic
  | .L i a b v ic => .L (w.id i) (w.node a) (w.node b) v ic
  | .K i l1 l2 k => .K (w.id i) l1 l2 k
  | .V i a b dc ac f => .V (w.id i) (w.node a) (w.node b) dc ac f
  | .I i a b dc ac f => .I (w.id i) (w.node a) (w.node b) dc ac f
  | .E i a b c d v => .E (w.id i) (w.node a) (w.node b) (w.node c) (w.node d) v
  | .G i a b c d v => .G (w.id i) (w.node a) (w.node b) (w.node c) (w.node d) v
  | .F i a b s v => .F (w.id i) (w.node a) (w.node b) s v
  | .H i a b s v => .H (w.id i) (w.node a) (w.node b) s v
  | .S i a b c d m => .S (w.id i) (w.node a) (w.node b) (w.node c) (w.node d) m
  | .D i a b m x ic o => .D (w.id i) (w.node a) (w.node b) m x ic o
  | .M i a b c d m x l mm n => .M (w.id i) (w.node a) (w.node b) (w.node c) (w.node d) m x l mm n

/-- The connections of a call to a subcircuit with the given ports (`none`: refused). -/
def connections (ports : List Line) (params : List (Line × Line)) : Option (List (Line × Line)) :=
  let conns := params.filter fun p => p.1 ≠ "name".toList
  if conns.all (fun p => ports.contains p.1) ∧ ports.all (fun n => (look conns n).isSome) then
    some conns
  else none

mutual

/-- `parse_sub_instance`. -/
def parseX (subs : List Sub) (models : List Line) :
    Nat → List Line → Except SErr (List PElem)
  | 0, _ => .error .recursion
  | fuel + 1, t =>
    if t.length < 2 then .error .parse
    else
      let params := callParams (t.drop 1) []
      match look params "name".toList with
      | none => .error .parse
      | some name =>
        match subs.find? (fun s => s.name = name) with
        | none => .error .parse
        | some sub =>
          match connections sub.ports params with
          | none => .error .parse
          | some conns =>
            match parseLines subs models fuel sub.code [] with
            | .error e => .error e
            | .ok els => .ok (els.map (wrapper conns sub.name t[0]!).elem)

/-- `main_netlist_parser`; `els`: the elements found so far. -/
def parseLines (subs : List Sub) (models : List Line) :
    Nat → List (List Line) → List PElem → Except SErr (List PElem)
  | _, [], els => .ok els
  | 0, _ :: _, _ => .error .recursion
  | fuel + 1, t :: rest, els =>
    match t with
    | ('x' :: _) :: _ =>
      match parseX subs models fuel t with
      | .error e => .error e
      | .ok more => parseLines subs models fuel rest (els ++ more)
    | _ =>
      match parseElem models els t with
      | .error e => .error (.elem e)
      | .ok e => parseLines subs models fuel rest (els ++ [e])

end

end Verif.Subckt
