import Verif.Model.Csv
import Verif.Model.Mna
import Mathlib.Algebra.Order.Group.Unbundled.Abs

/-!
# Result sets: `ahkab/results.py`

Names are character lists.  `nodes` is the list of the external names of the nodes `1, 2, …` (`circ.nodes_dict[index + 1]`;
the reference is left out), `circ` the list of elements.  A vector of unknowns is the list of the entries of the reduced `x`.

Simplifications: errors of the operating point, time stamps, table printing and `skip_nodes_list` are left out; the data file
is a list of lines (see `Csv`).
-/

namespace Verif.Results
open Verif.Circuit Verif.Csv

/-- `name.upper()` -/
def upperW (w : Word) : Word := w.map Char.toUpper

section Names
variable {α : Type}

/-- `"V" + str(circ.nodes_dict[index + 1])`, e.g. l. 279 -/
def voltName (node : Word) : Word := 'V' :: node

/-- `"I(" + elem.part_id.upper() + ")"`, e.g. l. 290 -/
def currName (e : Elem α) : Word := 'I' :: '(' :: (upper e.id ++ [')'])

/-- The loops over nodes and voltage-defined elements in the constructors: l. 278-295, 588-603, 742-758, 808-820, 876-889. -/
def baseVars (nodes : List Word) (circ : List (Elem α)) : List Word :=
  nodes.map voltName ++ (circ.filter Elem.vde).map currName

/-- op_solution, l. 278-295: upper case -/
def opVars (nodes : List Word) (circ : List (Elem α)) : List Word := (baseVars nodes circ).map upperW

/-- tran_solution, l. 803-820: upper case, after `T` -/
def tranVars (nodes : List Word) (circ : List (Elem α)) : List Word := ['T'] :: (baseVars nodes circ).map upperW

/-- pss_solution, l. 872-889 -/
def pssVars (nodes : List Word) (circ : List (Elem α)) : List Word := ['T'] :: baseVars nodes circ

/-- dc_solution, l. 737-758: the sweep variable is the part id of the source, first letter upper case
(dc_analysis.py l. 509) -/
def dcVars (sweep : Word) (nodes : List Word) (circ : List (Elem α)) : List Word := sweep :: baseVars nodes circ

/-- ac_solution, l. 583-603 -/
def acVars (nodes : List Word) (circ : List (Elem α)) : List Word := ['f'] :: baseVars nodes circ

/-- `"|%s|"` -/
def absName (v : Word) : Word := '|' :: (v ++ ['|'])

/-- `"arg(%s)"` -/
def argName (v : Word) : Word := 'a' :: 'r' :: 'g' :: '(' :: (v ++ [')'])

/-- `csv_headers` of ac_solution, l. 585 and 600-602 -/
def acHeaders (nodes : List Word) (circ : List (Elem α)) : List Word :=
  ['f'] :: (baseVars nodes circ).flatMap (fun v => [absName v, argName v])

end Names

section File
variable {K : Type}

/-- The data file after the lines `rows` were added one by one (`add_line`, `add_op`: l. 760-769, 829-838; `_add_data`,
l. 118-125: the first call writes the file anew, the others append). -/
def addLines (fmt : K → Word) (vars : List Word) (old : List Word) : Bool → List (List K) → List Word
  | _, [] => old
  | done, r :: rs => addLines fmt vars (writeCsv fmt old [r] vars done) true rs

/-- `solution.__getitem__`, l. 178-187: a `ValueError` becomes a `KeyError` (`none`). -/
def getItem (parse : Word → Option K) (file : List Word) (name : Word) : Except Csv.Err (Option (List K)) :=
  match loadCsv parse file [name] none 0 with
  | .ok l => .ok (some l.data.flatten)
  | .error .value => .ok none
  | .error e => .error e

/-- `solution.__contains__`, l. 202-204 -/
def hasKey (vars : List Word) (name : Word) : Bool := decide (upperW name ∈ vars.map upperW)

/-- `op_solution.__getitem__`, l. 306-312 -/
def opGet (vars : List Word) (x : List K) (name : Word) : Option (List K) :=
  if hasKey vars name then (headersIndex vars [name]).mapM (fun i => x[i]?) else none

/-- `ac_solution.add_line`, l. 620-628: frequency, then modulus and phase of each unknown. -/
def acRow {C : Type} (absf argf : C → K) (f : K) (x : List C) : List K := f :: x.flatMap (fun z => [absf z, argf z])

/-- `data[0, :] * np.exp(1j*data[1, :])` for one sample -/
def acPair {C : Type} (polar : K → K → C) : List K → Option C
  | m :: p :: _ => some (polar m p)
  | _ => none

/-- `ac_solution.__getitem__`, l. 666-689; `polar m p` is `m*exp(1j*p)`, `real` the frequencies as complex numbers.
`none` is the `KeyError`. -/
def acGet {C : Type} (polar : K → K → C) (real : K → C) (parse : Word → Option K) (file : List Word) (name : Word) :
    Except Csv.Err (Option (List C)) :=
  let headers := if upperW name ≠ ['F'] then [absName name, argName name] else [name]
  match loadCsv parse file headers none 0 with
  | .ok l =>
    if l.headers.length = 2 then .ok (some (l.data.filterMap (acPair polar)))
    else .ok (some (l.data.flatten.map real))
  | .error .value => .ok none
  | .error e => .error e

end File

section Dict
variable {V : Type}

/-- A Python `dict` with string keys, in order of insertion. -/
abbrev PyDict (V : Type) := List (Word × V)

/-- `d[k] = v` -/
def PyDict.set (d : PyDict V) (k : Word) (v : V) : PyDict V :=
  match d with
  | [] => [(k, v)]
  | (a, w) :: r => if a = k then (a, v) :: r else (a, w) :: PyDict.set r k v

/-- `case_insensitive_dict.update({k: v})`, l. 1329-1333 -/
def ciUpdate (d : PyDict V) (k : Word) (v : V) : PyDict V := d.set k v

/-- `case_insensitive_dict.__getitem__` and `get`, l. 1290-1312: `none` is the `KeyError`, or the default value. -/
def ciGet : PyDict V → Word → Option V
  | [], _ => none
  | (a, w) :: r, k => if upperW a = upperW k then some w else ciGet r k

/-- `case_insensitive_dict.__contains__`, l. 1314-1320 -/
def ciHas (d : PyDict V) (k : Word) : Bool := decide (upperW k ∈ d.map (fun p => upperW p.1))

end Dict

section Pz
variable {C : Type}

/-- pz_solution, l. 1172-1206. `num i` is `'%d' % i`; `data = none` means that the attribute was never set. -/
structure PzSol (C : Type) where
  vars : List Word
  data : Option (PyDict C)

/-- The constructor of pz_solution; poles and zeros are sorted before (`np.sort_complex`).  The dictionary is filled inside
`if np.prod(self.zeros.shape)`. -/
def pzSolution (num : Nat → Word) (poles zeros : List C) : PzSol C :=
  let pv := (List.range poles.length).map (fun i => 'p' :: num i)
  let zv := (List.range zeros.length).map (fun i => 'z' :: num i)
  { vars := pv ++ zv
    data := if zeros.isEmpty then none
      else some (((pv ++ zv).zip (poles ++ zeros)).foldl (fun d p => ciUpdate d p.1 p.2) []) }

/-- pz_solution.__getitem__, l. 1220-1224: `AttributeError` without `data`, else the value or a `KeyError`. -/
def pzGet (s : PzSol C) (name : Word) : Except Circuit.Err C :=
  match s.data with
  | none => .error .attr
  | some d =>
    if ciHas d name then
      match ciGet d name with
      | some v => .ok v
      | none => .error .key
    else .error .key

end Pz

section Op
variable {α : Type}

/-- What `gmin_check` looks at. -/
structure OpSol (K : Type) where
  vars : List Word
  results : PyDict K
  units : PyDict Char

/-- The constructor of op_solution, l. 265-295: variables, values and units in the order of the unknowns. -/
def opSolution {K : Type} (nodes : List Word) (circ : List (Elem α)) (x : List K) : OpSol K :=
  let vs := (nodes.map (fun n => (upperW (voltName n), 'V')))
    ++ ((circ.filter Elem.vde).map (fun e => (upperW (currName e), 'A')))
  { vars := vs.map Prod.fst
    results := ((vs.map Prod.fst).zip x).foldl (fun d p => ciUpdate d p.1 p.2) []
    units := vs.foldl (fun d p => ciUpdate d p.1 p.2) [] }

/-- Tolerances of `options`. -/
structure Tol (K : Type) where
  ver : K
  vea : K
  ier : K
  iea : K

/-- One variable of `gmin_check`, l. 510-521; `none` is a `KeyError`. -/
def gminStep {K : Type} [Field K] [LinearOrder K] (tol : Tol K) (op2 op1 : OpSol K) (acc : List Word) (v : Word) :
    Option (List Word) := do
  let b ← ciGet op2.results v
  let a ← ciGet op1.results v
  let u ← ciGet op1.units v
  if u = 'V' then
    return if |b - a| > tol.ver * max |a| |b| + tol.vea then acc ++ [v] else acc
  else if u = 'A' then
    return if |b - a| > tol.ier * max |a| |b| + tol.iea then acc ++ [v] else acc
  else return acc

/-- results.py l. 493-523, `gmin_check` -/
def gminCheck {K : Type} [Field K] [LinearOrder K] (tol : Tol K) (op2 op1 : OpSol K) : Option (List Word) :=
  op1.vars.foldlM (gminStep tol op2 op1) []

end Op

section Power
variable {α : Type} [Field α]

/-- `v = v + x[n1-1] if n1 != 0 else v; v = v - x[n2-1] if n2 != 0 else v`, on the reduced vector. -/
def portV (y : Nat → α) (n1 n2 : Nat) : α :=
  (if n1 ≠ 0 then y (n1 - 1) else 0) - (if n2 ≠ 0 then y (n2 - 1) else 0)

/-- `x[n-1]`: for `n = 0` the last entry. -/
def pyAt (size : Nat) (y : Nat → α) (n : Nat) : α := if n = 0 then y (size - 1) else y (n - 1)

/-- The test of the search loop below: a VSource with that name. -/
def senseHit (src : String) : Elem α → Bool
  | .V id .. => decide (lower id = lower src)
  | _ => false

/-- The search loop for the controlling source of an FISource, l. 411-422: only VSources are accepted. -/
def findSense (src : String) : List (Elem α) → Nat → Option Nat
  | [], _ => none
  | e :: r, k =>
    if e.vde then (if senseHit src e then some k else findSense src r (k + 1)) else findSense src r k

/-- One element of the power part of `_get_elements_op`, l. 388-437.  `nv1` is the number of nodes less one, `size` the
length of `x`. The state is `(tot_power, i_index)`. -/
def powerStep (circ : List (Elem α)) (nv1 size : Nat) (y : Nat → α) (s : α × Nat) (e : Elem α) : Except Circuit.Err (α × Nat) :=
  match e with
  | .G _ n1 n2 s1 s2 a =>
    let vs := (if s1 ≠ 0 then pyAt size y n1 else 0) - (if s2 ≠ 0 then pyAt size y n2 else 0)
    .ok (s.1 - portV y n1 n2 * vs * a, s.2)
  | .I _ n1 n2 src =>
    match src.eval none with
    | some i => .ok (s.1 - portV y n1 n2 * i, s.2)
    | none => .error .type
  | .V _ n1 n2 _ => .ok (s.1 - portV y n1 n2 * y (nv1 + s.2), s.2 + 1)
  | .E _ n1 n2 .. => .ok (s.1 - portV y n1 n2 * y (nv1 + s.2), s.2 + 1)
  | .F _ n1 n2 src a =>
    match findSense src circ 0 with
    | some k => .ok (s.1 - portV y n1 n2 * a * y (nv1 + k), s.2)
    | none => .error .exn
  | .H id _ _ src a =>
    match findVdeIndex circ src, findVdeIndex circ id with
    | .ok k, .ok k2 => .ok (s.1 - a * y (nv1 + k) * y (nv1 + k2), s.2)
    | .error _, _ => .error .exn
    | _, .error x => .error x
  | .L .. => .ok (s.1, s.2 + 1)
  | _ => .ok s

/-- `tot_power` -/
def totPower (circ : List (Elem α)) (nv1 size : Nat) (y : Nat → α) : Except Circuit.Err α :=
  match Mna.loop (powerStep circ nv1 size y) (0, 0) circ with
  | .ok s => .ok s.1
  | .error x => .error x

end Power

end Verif.Results
