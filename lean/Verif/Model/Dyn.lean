import Verif.Model.Mna

/-!
Model of the matrix of the dynamic elements: `generate_D` (transient.py:472-561) and
`_generate_AC` (ac.py:323-377), and of `Circuit.add_inductor_coupling`
(circuit.py:576-612).
-/

namespace Verif.Dyn
open Verif.Circuit Verif.Mna

variable {α : Type} [Field α]

/-- matrix and number of branches seen so far (`i_eq`) -/
structure DState (α : Type) where
  D : Mat α
  iEq : Nat

/-- The loop over `elem.coupling_devices`, transient.py:539-545. -/
def couplings (circ : List (Elem α)) (nv row : Nat) (id : String) (D : Mat α)
    (cd : Coupling α) : Except Err (Mat α) :=
  match cd.other id with
  | .error x => .error x
  | .ok o => match findVdeIndex circ o with
    | .error x => .error x
    | .ok k => .ok (D.add row (nv + k) (-1 * cd.M))

/-- Body of the loop over the elements, transient.py:526-547. -/
def dStep (circ : List (Elem α)) (nv : Nat) (s : DState α) (e : Elem α) :
    Except Err (DState α) :=
  match e with
  | .L id _ _ value _ coup =>
    match loop (couplings circ nv (nv + s.iEq) id)
        (s.D.put (nv + s.iEq) (nv + s.iEq) (-1 * value)) coup with
    | .ok D => .ok ⟨D, s.iEq + 1⟩
    | .error x => .error x
  | .C _ n1 n2 value _ =>
    .ok { s with D := (((s.D.add n1 n1 value).add n1 n2 (-value)).add n2 n2 value).add n2 n1 (-value) }
  | e => .ok (if e.vde then { s with iEq := s.iEq + 1 } else s)

/-- `cmin_mat`, transient.py:550-553: `n` is its size. -/
def cminMat (n : Nat) : Mat α := fun i j =>
  if n ≤ i ∨ n ≤ j then 0
  else if i = 0 ∧ j = 0 then ((n - 1 : Nat) : α)
  else if i = 0 ∨ j = 0 then 1
  else if i = j then 1 else 0

/-- `generate_D`, transient.py:472-561. `S` is the size of the unreduced system
(`shape[0]+1`), `cmin` is `options.cmin`; `cmin = 0` switches the addition off, like the
test `options.cmin > 0` (negative values are not modelled). -/
def generateD (circ : List (Elem α)) (nv S : Nat) (cmin : α) : Except Err (Mat α) :=
  match loop (dStep circ nv) ⟨fun _ _ => 0, 0⟩ circ with
  | .error x => .error x
  | .ok s => .ok (fun i j => s.D i j + cmin * cminMat (S - s.iEq) i j)

/-- The loop over `elem.coupling_devices` in ac.py:354-363. -/
def couplingsAC (circ : List (Elem α)) (nv row : Nat) (id : String) (AC : Mat α)
    (cd : Coupling α) : Except Err (Mat α) :=
  match cd.other id with
  | .error x => .error x
  | .ok o => match findVdeIndex circ o with
    | .error x => .error x
    | .ok k => .ok (AC.add row (nv + k) (-1 * cd.M))

/-- Body of the loop over the elements, ac.py:342-364. -/
def acStep (circ : List (Elem α)) (nv : Nat) (s : DState α) (e : Elem α) :
    Except Err (DState α) :=
  match e with
  | .L id _ _ value _ coup =>
    match loop (couplingsAC circ nv (nv + s.iEq) id)
        (s.D.put (nv + s.iEq) (nv + s.iEq) (-1 * value)) coup with
    | .ok D => .ok ⟨D, s.iEq + 1⟩
    | .error x => .error x
  | .C _ n1 n2 value _ =>
    .ok { s with D := (((s.D.add n1 n1 value).add n1 n2 (-value)).add n2 n2 value).add n2 n1 (-value) }
  | e => .ok (if e.vde then { s with iEq := s.iEq + 1 } else s)

/-- `cmin_mat` of ac.py:367-370. -/
def cminMatAC (n : Nat) : Mat α := fun i j =>
  if n ≤ i ∨ n ≤ j then 0
  else if i = 0 ∧ j = 0 then ((n - 1 : Nat) : α)
  else if i = 0 ∨ j = 0 then 1
  else if i = j then 1 else 0

/-- `_generate_AC`, ac.py:323-377. -/
def generateAC (circ : List (Elem α)) (nv S : Nat) (cmin : α) : Except Err (Mat α) :=
  match loop (acStep circ nv) ⟨fun _ _ => 0, 0⟩ circ with
  | .error x => .error x
  | .ok s => .ok (fun i j => s.D i j + cmin * cminMatAC (S - s.iEq) i j)

/-- The search loop of `add_inductor_coupling`, circuit.py:594-600: positions of the
inductors (the last match wins; an element equal to the first name is not compared with
the second). -/
def findPair (L1 L2 : String) : List (Elem α) → Nat → Option Nat × Option Nat → Option Nat × Option Nat
  | [], _, acc => acc
  | e :: r, i, acc =>
    findPair L1 L2 r (i + 1) (match e with
      | .L id .. => if L1 = id then (some i, acc.2) else if L2 = id then (acc.1, some i) else acc
      | _ => acc)

/-- inductance of an element -/
def indValue : Elem α → α
  | .L _ _ _ v .. => v
  | _ => 0

/-- `elem.coupling_devices.append(cd)` -/
def attach (cd : Coupling α) : Elem α → Elem α
  | .L id n1 n2 v ic coup => .L id n1 n2 v ic (coup ++ [cd])
  | e => e

/-- `Circuit.add_inductor_coupling`, circuit.py:576-612. `sqrt` is `math.sqrt`, `none` is
its `ValueError` for negative arguments. The element objects are shared in Python; here
the list of elements is updated at their positions. -/
def addCoupling (sqrt : α → Option α) (circ : List (Elem α)) (id L1 L2 : String) (k : α) :
    Except Err (List (Elem α)) :=
  match findPair L1 L2 circ 0 (none, none) with
  | (some i, some j) =>
    match circ[i]?, circ[j]? with
    | some e1, some e2 =>
      match sqrt (indValue e1 * indValue e2) with
      | some q =>
        let cd : Coupling α := { id := id, L1 := L1, L2 := L2, k := k, M := q * k }
        .ok (((circ.modify i (attach cd)).modify j (attach cd)) ++ [.K cd])
      | none => .error .value
    | _, _ => .error .value
  | _ => .error .value

end Verif.Dyn
