import Verif.Model.Circuit
import Mathlib.Algebra.Order.Field.Basic
import Mathlib.Data.Rat.Defs

/-!
Model of the DC guess, `dc_guess.get_dc_guess` (dc_guess.py:40-227).

The solution of the small linear system (`inv` or `pinv`, lines 190-205) is a parameter
(`none`: "No guess"). Printing is left out. Matrix rows are lists.
-/

namespace Verif.Guess
open Verif.Circuit

variable {K : Type} [Field K] [DecidableEq K]

/-- `elem.dc_guess`: a list, or a plain number (diode.py:95). -/
inductive DcGuess (K : Type) where
  | list (l : List K)
  | scalar (x : K)

/-- `elem.dc_guess[i]` -/
def DcGuess.get : DcGuess K → Nat → Except Err K
  | .list l, i => match l[i]? with
    | some x => .ok x
    | none => .error .index
  | .scalar _, _ => .error .type

/-- What matters of an element: its ports (`elem.ports`, or the only port of a linear element) and
its guess (`none`: no attribute, or `None`). -/
structure GElem (K : Type) where
  vde : Bool
  nonlinear : Bool
  ports : List (Nat × Nat)
  guess : Option (DcGuess K)

/-- an equation `v(n1) - v(n2) = t` -/
structure Eqn (K : Type) where
  n1 : Nat
  n2 : Nat
  t : K

/-- The loop over the ports, lines 94-120: `i` is `port_index`, which is not advanced by a port that
is skipped. -/
def portEqns (g : DcGuess K) : List (Nat × Nat) → Nat → Except Err (List (Eqn K))
  | [], _ => .ok []
  | (n1, n2) :: r, i =>
    if n1 = n2 then portEqns g r i
    else match g.get i with
      | .error x => .error x
      | .ok t => match portEqns g r (i + 1) with
        | .error x => .error x
        | .ok l => .ok (⟨n1, n2, t⟩ :: l)

/-- The equations of an element, lines 91-120. -/
def elemEqns (e : GElem K) : Except Err (List (Eqn K)) :=
  match e.guess with
  | none => .ok []
  | some g => portEqns g e.ports 0

/-- The loop over the elements, lines 85-120. -/
def allEqns : List (GElem K) → Except Err (List (Eqn K))
  | [] => .ok []
  | e :: r => match elemEqns e with
    | .error x => .error x
    | .ok l => match allEqns r with
      | .error x => .error x
      | .ok m => .ok (l ++ m)

/-- A row of `M` without the column of the reference (line 126): `M[index, n1] = +1`,
`M[index, n2] = -1`. -/
def row (nv : Nat) (q : Eqn K) : List K :=
  (List.range (nv - 1)).map fun i => if i + 1 = q.n2 then -1 else if i + 1 = q.n1 then 1 else 0

/-- rows and right-hand side; without equations there is one empty row, lines 79-80 -/
def system (nv : Nat) (l : List (Eqn K)) : List (List K × K) :=
  if l = [] then [((List.range (nv - 1)).map fun _ => 0, 0)]
  else l.map fun q => (row nv q, q.t)

/-- `not dummy1.any() or not dummy2.any()`, lines 152-154 -/
def dependent (a b : List K) : Bool :=
  (List.zipWith (· - ·) a b).all (· = 0) || (List.zipWith (· + ·) a b).all (· = 0)

/-- The removal of dependent rows, lines 149-158, from the bottom: the argument is the list of rows
from the last to the first. -/
def dedupRev : List (List K × K) → List (List K × K)
  | [] => []
  | r :: above =>
    if above.any (fun s => dependent r.1 s.1) then dedupRev above else r :: dedupRev above

def dedup (l : List (List K × K)) : List (List K × K) := (dedupRev l.reverse).reverse

/-- `M[:, i].any()` -/
def colUsed (l : List (List K × K)) (i : Nat) : Bool := l.any fun r => r.1.getD i 0 ≠ 0

/-- `removed_index`, lines 168-172: from the last column to the first. -/
def removed (l : List (List K × K)) (ncol : Nat) : List Nat :=
  (List.range ncol).reverse.filter fun i => !colUsed l i

/-- the columns that are left, in order -/
def kept (l : List (List K × K)) (ncol : Nat) : List Nat :=
  (List.range ncol).filter fun i => colUsed l i

/-- `M` with the empty columns removed -/
def reducedM (l : List (List K × K)) (ncol : Nat) : List (List K) :=
  l.map fun r => (kept l ncol).map fun i => r.1.getD i 0

/-- Lines 212-215: zeros are inserted in the order in which the columns were removed. -/
def insertZeros : List Nat → List K → List K
  | [], x => x
  | i :: r, x => insertZeros r (x.take i ++ 0 :: x.drop i)

/-- `get_dc_guess`; `solve M T` is the solution of the reduced system. -/
def getDcGuess (solve : List (List K) → List K → Option (List K)) (circ : List (GElem K)) (nv : Nat) :
    Except Err (Option (List K)) :=
  if !(circ.any (·.nonlinear)) then .ok none
  else match allEqns circ with
    | .error x => .error x
    | .ok eqs =>
      if !(circ.any fun e => e.guess.isSome) then .ok none
      else
        let l := dedup (system nv eqs)
        match solve (reducedM l (nv - 1)) (l.map Prod.snd) with
        | none => .ok none
        | some x => .ok (some (insertZeros (removed l (nv - 1)) x ++
            List.replicate (circ.countP (·.vde)) 0))

end Verif.Guess
