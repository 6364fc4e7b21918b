import Verif.Model.Results
import Verif.Model.Devices

/-!
Model of the element tables of an operating point: `op_solution._get_elements_op` (results.py:339-386, the part that is
not about the total power, see `Model.Results`) and the methods `get_op_info` of Resistor (Resistor.py:71-92),
Capacitor (Capacitor.py:64-85), Inductor (Inductor.py:54-75), VSource (VSource.py:126-149), ISource
(ISource.py:127-147), diode (diode.py:207-230) and TunnelJunction (TunnelJunction.py:150-172).

A table is a list of rows: the name of the element and numbers. The columns of other devices are a parameter. All
devices of the code have one output port, so `ports_v_v` has one element, the voltages of the drive ports.
-/

namespace Verif.OpInfo
open Verif.Circuit Verif.Mna Verif.Results

variable {α : Type} [Field α]

/-- `get_op_info`: the labels without the first (which is `"Part ID"` for all), and the values -/
structure Info (α : Type) where
  keys : List String
  cells : List α

/-- the value of an independent source times something is a `TypeError` without a value -/
def valueOf (s : Src α) (f : α → Info α) : Except Err (Info α) :=
  match s.eval none with
  | some v => .ok (f v)
  | none => .error .type

/-- `get_op_info` of diodes and tunnel junctions; `tail` is the temperature of diodes -/
def devInfo (l : Devices.Law α) (tail : List (String × α)) (vs : List α) : Except Err (Info α) :=
  match vs with
  | v :: _ => .ok ⟨["V(n1-n2) [V]", "I(n1-n2) [A]", "P [W]", "gm [A/V]"] ++ tail.map Prod.fst,
      [v, l.i v, v * l.i v, l.gm v] ++ tail.map Prod.snd⟩
  | [] => .error .index

/-- the current of a voltage-defined element, lines 371-374 -/
def withCurrent (circ : List (Elem α)) (nv1 : Nat) (y : Nat → α) (id : String) (f : α → Except Err (Info α)) :
    Except Err (Info α) :=
  match findVdeIndex circ id with
  | .ok k => f (y (nv1 + k))
  | .error x => .error x

/-- What the loop gets from an element, lines 346-376: `none` if it has no `get_op_info`. `dev` are the methods of the
devices, `y` is the solution. -/
def info (dev : String → List α → Except Err (Info α)) (circ : List (Elem α)) (nv1 : Nat) (y : Nat → α) :
    Elem α → Option (Except Err (Info α))
  | .R _ n1 n2 r =>
    let v := Results.portV y n1 n2
    some (.ok ⟨["R [Ω]", "V(n1,n2) [V]", "I(n1->n2) [A]", "P [W]"], [r, v, v / r, v ^ 2 / r]⟩)
  | .C _ n1 n2 c _ =>
    let v := Results.portV y n1 n2
    some (.ok ⟨["V(n1-n2) [V]", "Q [C]", "E [J]"], [v, v * c, 1 / 2 * v ^ 2 * c]⟩)
  | .L id _ _ l _ _ => some (withCurrent circ nv1 y id fun i =>
    .ok ⟨["ϕ(n1,n2) [Wb]", "I(n1->n2) [A]", "E [J]"], [l * i, i, 1 / 2 * l * i ^ 2]⟩)
  | .V id _ _ s => some (withCurrent circ nv1 y id fun i => valueOf s fun u =>
    ⟨["V(n1,n2) [V]", "I(n1->n2) [A]", "P [W]"], [u, i, u * i]⟩)
  | .I _ n1 n2 s =>
    let v := Results.portV y n1 n2
    some (valueOf s fun j => ⟨["V(n1-n2) [V]", "I [A]", "P [W]"], [v, j, v * j]⟩)
  | .NL id _ _ _ ports _ => some (dev id (ports.map fun p => Results.portV y p.1 p.2))
  | _ => none

/-- a row: `part_id.upper()` and numbers -/
abbrev Row (α : Type) := List Char × List α

/-- an entry of `op_info`: the rows of a letter, or what stands under the name of a MOS transistor -/
inductive Entry (α : Type) where
  | group (rows : List (Row α))
  | single (row : Row α)

/-- `d[k]` -/
def dget {κ ν : Type} [DecidableEq κ] : List (κ × ν) → κ → Option ν
  | [], _ => none
  | (k', v) :: r, k => if k' = k then some v else dget r k

/-- `d.update({k: v})` -/
def dput {κ ν : Type} [DecidableEq κ] : List (κ × ν) → κ → ν → List (κ × ν)
  | [], k, v => [(k, v)]
  | (k', v') :: r, k, v => if k' = k then (k', v) :: r else (k', v') :: dput r k v

/-- `op_info` and `op_keys` -/
structure Tables (α : Type) where
  info : List (List Char × Entry α)
  keys : List (List Char × List String)

/-- lines 377-388 -/
def record (t : Tables α) (id : String) (i : Info α) : Except Err (Tables α) :=
  match upper id with
  | [] => .error .index
  | c :: _ =>
    if c ≠ 'M' then
      match dget t.info [c] with
      | some (.group rows) => .ok ⟨dput t.info [c] (.group (rows ++ [(upper id, i.cells)])), t.keys⟩
      -- does not happen: names of single entries begin with M
      | some (.single r) => .ok ⟨dput t.info [c] (.group [r, (upper id, i.cells)]), t.keys⟩
      | none => .ok ⟨dput t.info [c] (.group [(upper id, i.cells)]), dput t.keys [c] i.keys⟩
    else .ok ⟨dput t.info (upper id) (.single (upper id, i.cells)), dput t.keys (upper id) []⟩

/-- one element -/
def infoStep (dev : String → List α → Except Err (Info α)) (circ : List (Elem α)) (nv1 : Nat) (y : Nat → α)
    (t : Tables α) (e : Elem α) : Except Err (Tables α) :=
  match info dev circ nv1 y e with
  | none => .ok t
  | some (.error x) => .error x
  | some (.ok i) => record t e.id i

/-- the tables of an operating point -/
def opInfo (dev : String → List α → Except Err (Info α)) (circ : List (Elem α)) (nv1 : Nat) (y : Nat → α) :
    Except Err (Tables α) :=
  Mna.loop (infoStep dev circ nv1 y) ⟨[], []⟩ circ

end Verif.OpInfo
