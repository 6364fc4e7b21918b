import Mathlib.Data.List.Basic

/-!
Model of `utilities.combinations` (utilities.py:186-243).

An object with subset size `k` holds a list, an index and, for `k > 1`, an optional iterator
of size `k - 1`. The type of the state is indexed by `k`.
-/

namespace Verif.Comb

variable {α : Type}

/-- State of the iterator for subsets of size `k + 1`. -/
def St (α : Type) : Nat → Type
  | 0 => List α × Nat
  | k + 1 => List α × Nat × Option (St α k)

/-- State after `__init__` with a list and a size `k + 1` (lines 202-206). -/
def fresh : (k : Nat) → List α → St α k
  | 0, L => (L, 0)
  | _ + 1, L => (L, 0, none)

/-- `combinations(L, k)`, lines 202-211 (`none`: `ValueError`). -/
def init (L : List α) (k : Int) : Option (St α (k.toNat - 1)) :=
  if (L.length : Int) < k then none
  else if k ≤ 0 then none
  else some (fresh _ L)

/-- `__next__` for `self.k > 1` (lines 221-236), given `__next__` of the inner iterator. The
code calls itself after moving to the next index; `fuel` bounds these calls (there are at
most `len(L)` indices). `none`: `StopIteration`; the index error of `self.L[self._i]`
is not reachable (see `Props.Comb`) and stands for `StopIteration` here. -/
def advance {k : Nat} (inner : St α k → Option (List α × St α k)) :
    Nat → List α × Nat × Option (St α k) → Option (List α × (List α × Nat × Option (St α k)))
  | 0, _ => none
  | fuel + 1, (L, i, sub) =>
    let s := sub.getD (fresh k (L.drop (i + 1)))
    match inner s with
    | some (nxt, s') => (L[i]?).map fun cur => (cur :: nxt, (L, i, some s'))
    | none =>
      if i < L.length - (k + 2) then
        advance inner fuel (L, i + 1, some (fresh k (L.drop (i + 2))))
      else none

/-- `__next__` (lines 219-243). -/
def next : (k : Nat) → St α k → Option (List α × St α k)
  | 0, (L, i) => (L[i]?).map fun cur => ([cur], (L, i + 1))
  | k + 1, (L, i, sub) => advance (next k) (L.length + 1) (L, i, sub)

/-- What a `for` loop over the iterator sees (at most `fuel` values). -/
def collect (k : Nat) : Nat → St α k → List (List α)
  | 0, _ => []
  | f + 1, s => match next k s with
    | none => []
    | some (v, s') => v :: collect k f s'

end Verif.Comb
