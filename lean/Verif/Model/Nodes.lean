import Mathlib.Data.List.Basic

/-!
Model of the node table of `Circuit` (ahkab/circuit.py).

The Python attribute `nodes_dict` is one dictionary that holds both directions
(`int -> name` and `name -> int`); the model keeps that single dictionary, with
Python's overwrite-on-update behaviour, as an association list.

Simplification: the `TypeError` branch of `create_node` / `add_node` (a name that
is not text) is excluded by typing.
-/

namespace Verif.Nodes

/-- Keys and values of `nodes_dict`: integers or strings. circuit.py:156. -/
inductive Key where
  | int (n : Nat)
  | ext (s : String)
deriving DecidableEq, Repr

/-- `nodes_dict`, circuit.py:156. -/
abbrev Dict := List (Key × Key)

/-- `d.update({k: v})`: overwrite the value of an existing key, else insert. -/
def Dict.set : Dict → Key → Key → Dict
  | [], k, v => [(k, v)]
  | (k', v') :: r, k, v => if k' = k then (k', v) :: r else (k', v') :: Dict.set r k v

/-- `d[k]` (as an option: `none` is `KeyError`). -/
def Dict.get : Dict → Key → Option Key
  | [], _ => none
  | (a, b) :: r, k => if a = k then some b else Dict.get r k

/-- `k in d`. -/
def Dict.has (d : Dict) (k : Key) : Bool := (d.get k).isSome

/-- `d.pop(k)` (the key is known to exist where this is used). -/
def Dict.pop (d : Dict) (k : Key) : Dict := d.filter (fun e => e.1 ≠ k)

/-- The part of a `Circuit` that concerns nodes. circuit.py:153-159. -/
structure Circ where
  dict : Dict := []
  internal : Nat := 0
deriving DecidableEq, Repr

/-- Outcome of a node-creating call: a name, a number or `ValueError`. -/
inductive Res where
  | name (s : String)
  | num (n : Nat)
  | valueError
deriving DecidableEq, Repr

/-- The number given to a new node. circuit.py:196-199 and 244-248. -/
def freshNum (d : Dict) (name : String) : Nat :=
  if name = "0" then 0
  else d.length / 2 + (if d.has (.int 0) then 0 else 1)

/-- The two `update` calls. circuit.py:200-201 and 249-250. -/
def insertNode (d : Dict) (name : String) : Dict :=
  let n := freshNum d name
  (d.set (.int n) (.ext name)).set (.ext name) (.int n)

/-- `Circuit.create_node`, circuit.py:166-206. -/
def createNode (c : Circ) (name : String) : Circ × Res :=
  if c.dict.has (.ext name) then (c, .valueError)
  else ({ c with dict := insertNode c.dict name }, .name name)

/-- `Circuit.add_node`, circuit.py:208-254. -/
def addNode (c : Circ) (name : String) : Circ × Res :=
  match c.dict.get (.ext name) with
  | some (.int n) => (c, .num n)
  | some (.ext s) => (c, .name s)
  | none => ({ c with dict := insertNode c.dict name }, .num (freshNum c.dict name))

/-- `Circuit.new_internal_node`, circuit.py:256-276: the counter is incremented
before the node is created, so it also advances when creation fails. -/
def newInternalNode (c : Circ) : Circ × Res :=
  let ext := "INT" ++ toString c.internal
  createNode { c with internal := c.internal + 1 } ext

/-- `Circuit.ext_node_to_int`, circuit.py:338-352 (`none`: `KeyError`). -/
def extToInt (c : Circ) (s : String) : Option Nat :=
  match c.dict.get (.ext s) with
  | some (.int n) => some n
  | _ => none

/-- `Circuit.int_node_to_ext`, circuit.py:354-368 (`none`: `KeyError`). -/
def intToExt (c : Circ) (n : Nat) : Option String :=
  match c.dict.get (.int n) with
  | some (.ext s) => some s
  | _ => none

/-- `Circuit.get_nodes_number`, circuit.py:278-280. -/
def nodesNumber (c : Circ) : Nat := c.dict.length / 2

/-- Node-creating calls a user can make. -/
inductive Op where
  | create (s : String)
  | add (s : String)
  | newInternal
deriving DecidableEq, Repr

def step (c : Circ) : Op → Circ × Res
  | .create s => createNode c s
  | .add s => addNode c s
  | .newInternal => newInternalNode c

/-- A history of calls applied to a circuit. -/
def run (c : Circ) (ops : List Op) : Circ :=
  ops.foldl (fun c o => (step c o).1) c

/-- `Circuit.is_int_node_internal_only`, circuit.py:282-300
(`none`: `KeyError` on an unknown number): true if the name contains "INT". -/
def isInternalOnly (c : Circ) (n : Nat) : Option Bool :=
  match c.dict.get (.int n) with
  | some (.ext s) => some (s.toList.tails.any (fun t => "INT".toList.isPrefixOf t))
  | _ => none

end Verif.Nodes
