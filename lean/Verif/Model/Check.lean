import Verif.Model.Mna
import Verif.Model.Nodes

/-!
Model of the checks of a circuit: `check_circuit` (utilities.py:597-636) and
`check_ground_paths` (639-691).
-/

namespace Verif.Check
open Verif.Circuit

/-- Messages of `check_circuit`; `ok` is the empty one. -/
inductive Verdict where
  | ok | fewNodes | noRef | fewElems | duplicate
deriving DecidableEq

/-- `check_circuit`, utilities.py:619-634, for the node table and the elements. -/
def checkCircuit {α : Type} (nodes : Nodes.Circ) (circ : List (Elem α)) : Verdict :=
  if nodes.dict.length / 2 < 2 then .fewNodes
  else if !nodes.dict.has (.int 0) then .noRef
  else if circ.length < 2 then .fewElems
  else if hasDuplicateElem circ then .duplicate
  else .ok

variable {α : Type} [Field α] [DecidableEq α]

/-- The test of lines 673-674: the diagonal entry is zero and so are the columns of the
currents. The matrix has size `size`; `rc` is 1 for the reduced matrix. -/
def suspicious (M : Mna.Mat α) (size nv rc node : Nat) : Bool :=
  decide (M (node - rc) (node - rc) = 0) &&
    (List.range (size - (nv - rc))).all (fun k => M (node - rc) (nv - rc + k) = 0)

/-- Is the node at an output port of this non-linear element? -/
def atOutput (node : Nat) : Elem α → Bool
  | .NL _ _ _ _ _ oports => oports.any (fun p => p.1 == node || p.2 == node)
  | _ => false

/-- Lines 676-684: is the node at an output port of a non-linear element? -/
def nlOutput (circ : List (Elem α)) (node : Nat) : Bool := circ.any (atOutput node)

/-- `check_ground_paths`, utilities.py:639-691: the nodes warned about. `nodes` are the keys of
`nodes_dict` that are numbers. -/
def warned (M : Mna.Mat α) (size nv rc : Nat) (circ : List (Elem α)) (nodes : List Nat) :
    List Nat :=
  (nodes.filter (fun n => n != 0 && suspicious M size nv rc n)).filter
    (fun n => !nlOutput circ n)

def checkGroundPaths (M : Mna.Mat α) (size nv rc : Nat) (circ : List (Elem α))
    (nodes : List Nat) : Bool :=
  (warned M size nv rc circ nodes).isEmpty

end Verif.Check
