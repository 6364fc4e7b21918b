import Verif.Model.Dyn

/-!
Model of the assembly of the symbolic equations (symbolic.py).

A sympy expression is represented by its value under an arbitrary valuation `ρ` of the
symbols (and an arbitrary value `s` of the Laplace variable, whose lower case name no
other symbol can have): two expressions are the same rational function iff they have the
same values. A sympy symbol is its name together with its assumptions; of these only
`real` and `positive` (which implies `real`) are used by the modelled functions, and two
symbols are equal iff names and implied assumptions agree. `sympy.solve` is not modelled.
Non-linear devices (symbolic.py:431-457) are not modelled.
-/

namespace Verif.Symbolic
open Verif.Circuit Verif.Mna Verif.Dyn

/-- assumptions of a symbol, by strength -/
inductive Assume where
  | none | real | positive
deriving DecidableEq, Repr

/-- `sympy.Symbol` -/
structure Sym where
  name : List Char
  assume : Assume
deriving DecidableEq, Repr

/-- `_symbol_factory`, symbolic.py:625-632 (all the assumptions are enabled,
symbolic.py:88; an assumption passed as `False` is dropped). -/
def factory (name : List Char) (real positive : Bool) : Sym :=
  { name := name.map Char.toUpper
    assume := if positive then .positive else if real then .real else .none }

/-- What `generate_mna_and_N` depends on besides the circuit: the valuation of the
symbols, the Laplace variable, the flag `ac`, `options.symb_formulate_with_gs`, the
dictionary `subs` (`none`: not a key) and the flags `is_symbolic` of the elements (looked
up by part id). -/
structure Cfg (α : Type) where
  ρ : Sym → α
  s : α
  ac : Bool := true
  gs : Bool := false
  subs : Sym → Option Sym := fun _ => none
  isSym : String → Bool := fun _ => true

variable {α : Type} [Field α]

/-- `if X in subs: X = subs[X]` -/
def Cfg.subst (c : Cfg α) (x : Sym) : Sym := (c.subs x).getD x

/-- `if elem.is_symbolic: ... else: ...` -/
def Cfg.param (c : Cfg α) (id : String) (x : Sym) (num : Except Err α) : Except Err α :=
  if c.isSym id then .ok (c.ρ (c.subst x)) else num

/-- `'Gxxx' + str(R)[1:]`, symbolic.py:377 -/
def condSym (r : Sym) : Sym := factory ("Gxxx".toList ++ r.name.drop 1) true true

/-- the conductance of a resistor, symbolic.py:368-385 -/
def Cfg.conductance (c : Cfg α) (id : String) (value : α) : α :=
  if c.isSym id then
    if c.gs then c.ρ (condSym (c.subst (factory id.toList true true)))
    else 1 / c.ρ (c.subst (factory id.toList true true))
  else 1 / value

/-- `subs_g`, symbolic.py:381: pairs (conductance, resistance) standing for
`{G: 1/R}`. -/
def subsG (c : Cfg α) : List (Elem α) → List (Sym × Sym)
  | [] => []
  | .R id _ _ _ :: r =>
    if c.isSym id && c.gs then
      (condSym (c.subst (factory id.toList true true)), c.subst (factory id.toList true true)) :: subsG c r
    else subsG c r
  | _ :: r => subsG c r

/-- `elem.dc_value`; using `None` in a sum raises `TypeError` -/
def dcValue (src : Src α) : Except Err α :=
  match src.dc with
  | some v => .ok v
  | none => .error .type

/-- First loop of `generate_mna_and_N`, symbolic.py:363-470. `elem.dc_value` of a source
without one is `None`, adding it raises `TypeError`; `GISource` has no attribute `value`. -/
def symStamp1 (c : Cfg α) (t : Sys α) : Elem α → Except Err (Sys α)
  | .R id n1 n2 r =>
    let g := c.conductance id r
    .ok { t with M := (((t.M.add n1 n1 g).add n1 n2 (-g)).add n2 n1 (-g)).add n2 n2 g }
  | .C id n1 n2 value _ =>
    if c.ac then
      match c.param id (factory id.toList true true) (.ok value) with
      | .ok v =>
        let k := c.s * v
        .ok { t with M := (((t.M.add n1 n1 k).add n1 n2 (-k)).add n2 n2 k).add n2 n1 (-k) }
      | .error x => .error x
    else .ok t
  | .G id n1 n2 sn1 sn2 _ =>
    match c.param id (factory id.toList true false) (.error .attr) with
    | .ok a =>
      .ok { t with M := (((t.M.add n1 sn1 a).add n1 sn2 (-a)).add n2 sn1 (-a)).add n2 sn2 a }
    | .error x => .error x
  | .I id n1 n2 src =>
    match c.param id (factory id.toList false false) (dcValue src) with
    | .ok i => .ok { t with N := Vec.add (Vec.add t.N n1 i) n2 (-i) }
    | .error x => .error x
  | _ => .ok t

/-- Second loop, symbolic.py:472-527. `Inductor` has no attribute `L`. -/
def symStamp2 (c : Cfg α) (circ : List (Elem α)) (nv : Nat) (t : Sys α) (e : Elem α) :
    Except Err (Sys α) :=
  let kcl (n1 n2 : Nat) : Sys α :=
    { t with
      size := t.size + 1
      M := (((t.M.put n1 t.size 1).put n2 t.size (-1)).put t.size n1 1).put t.size n2 (-1) }
  match e with
  | .V id n1 n2 src =>
    match c.param id (factory id.toList false false) (dcValue src) with
    | .ok v => .ok { kcl n1 n2 with N := Vec.put t.N t.size (-v) }
    | .error x => .error x
  | .E id n1 n2 sn1 sn2 a0 =>
    match c.param id (factory id.toList true false) (.ok a0) with
    | .ok a =>
      .ok { kcl n1 n2 with M := ((kcl n1 n2).M.put t.size sn1 (-a)).put t.size sn2 a }
    | .error x => .error x
  | .H id n1 n2 src a0 =>
    match c.param id (factory id.toList true false) (.ok a0) with
    | .ok a =>
      match findVdeIndex circ src with
      | .ok k =>
        if nv + k < t.size + 1 then
          .ok { kcl n1 n2 with M := (kcl n1 n2).M.put t.size (nv + k) a }
        else .error .index
      | .error x => .error x
    | .error x => .error x
  | .L id n1 n2 .. =>
    if c.ac then
      match c.param id (factory id.toList true true) (.error .attr) with
      | .ok v => .ok { kcl n1 n2 with M := (kcl n1 n2).M.put t.size t.size (-c.s * v) }
      | .error x => .error x
    else .ok (kcl n1 n2)
  | _ => .ok t

/-- The loop over `elem.coupling_devices`, symbolic.py:534-551 (a coupling that is not
symbolic contributes its coefficient `K`). -/
def symCoupling (c : Cfg α) (circ : List (Elem α)) (row pre : Nat) (id : String) (M : Mat α)
    (cd : Coupling α) : Except Err (Mat α) :=
  match c.param cd.id (factory cd.id.toList true true) (.ok cd.k) with
  | .error x => .error x
  | .ok v => match cd.other id with
    | .error x => .error x
    | .ok o => match findVdeIndex circ o with
      | .error x => .error x
      | .ok k => .ok (M.add row (pre + k) (-c.s * v))

/-- Third loop, symbolic.py:529-563. -/
def symStamp3 (c : Cfg α) (circ : List (Elem α)) (pre : Nat) (t : Sys α) :
    Elem α → Except Err (Sys α)
  | .L id _ _ _ _ coup =>
    if c.ac then
      match findVdeIndex circ id with
      | .error x => .error x
      | .ok this => match loop (symCoupling c circ (pre + this) pre id) t.M coup with
        | .error x => .error x
        | .ok M => .ok { t with M := M }
    else .ok t
  | .F id n1 n2 src a =>
    match findVdeIndex circ src with
    | .error x => .error x
    | .ok k => match c.param id (factory id.toList true false) (.ok a) with
      | .error x => .error x
      | .ok f => .ok { t with M := (t.M.add n1 (pre + k) f).add n2 (pre + k) (-f) }
  | _ => .ok t

/-- `generate_mna_and_N`, symbolic.py:301-566 (`pre_vde` equals the number of nodes). -/
def symGenerate (c : Cfg α) (circ : List (Elem α)) (nv : Nat) : Except Err (Sys α) :=
  match loop (symStamp1 c) ⟨nv, fun _ _ => 0, fun _ => 0⟩ circ with
  | .error x => .error x
  | .ok s1 => match loop (symStamp2 c circ nv) s1 circ with
    | .error x => .error x
    | .ok s2 => loop (symStamp3 c circ nv) s2 circ

/-- `get_variables`, symbolic.py:253-280: the symbols of the unknowns; `nodes` are the
external names of the nodes 1, 2, ... -/
def unknowns (circ : List (Elem α)) (nodes : List (List Char)) : List Sym :=
  nodes.map (fun n => factory ('V' :: n) false false) ++
    (circ.filter Elem.vde).map
      (fun e => factory ("I[".toList ++ upper e.id ++ "]".toList) false false)

/-- the equations handed to the solver, symbolic.py:164-169: left hand side of row `r`
(counted from 1, the row of the reference is dropped) -/
def equation (c : Cfg α) (t : Sys α) (x : List Sym) (r : Nat) : α :=
  (x.zipIdx.map (fun p => t.M r (p.2 + 1) * c.ρ p.1)).sum + t.N r

/-- `letter in ('R', 'G', 'L', 'C', 'M')` -/
def posLetter (l : List Char) : Bool := ['R', 'G', 'L', 'C', 'M'].any (fun x => l.head? = some x)

/-- one pass of the loop of `_parse_substitutions`, symbolic.py:606-621; an empty part id
raises `IndexError`. -/
def parseSub (gs : Bool) : List Char → List Char → Except Err (Sym × Sym)
  | a :: r1, b :: r2 =>
    let gx : Bool := a.toUpper == 'R' && gs
    let l1 := if gx then "Gxxx".toList else [a.toUpper]
    let l2 := if gx then "Gxxx".toList else [b.toUpper]
    .ok (factory (l1 ++ r1) true (posLetter l1), factory (l2 ++ r2) true (posLetter l2))
  | _, _ => .error .index

/-- `subs.update({s1:s2})` -/
def update (d : Sym → Option Sym) (p : Sym × Sym) : Sym → Option Sym :=
  fun x => if x = p.1 then some p.2 else d x

/-- `_parse_substitutions`, symbolic.py:579-622; the dictionary is the list of its items. -/
def parseSubs (gs : Bool) : List (List Char × List Char) → (Sym → Option Sym) →
    Except Err (Sym → Option Sym)
  | [], d => .ok d
  | (v1, v2) :: r, d => match parseSub gs v1 v2 with
    | .ok p => parseSubs gs r (update d p)
    | .error x => .error x

end Verif.Symbolic
