import Mathlib.Algebra.Ring.Basic

/-!
Model of the matrix helpers of utilities.py:49-152: `expand_matrix`, `set_submatrix`,
`remove_row_and_col`, `remove_row`, with the parts of numpy that they use: slices with Python's
treatment of negative and too large bounds, `hstack`, `vstack`, `concatenate` and assignment to a
slice with broadcasting. Two-dimensional arrays only.
-/

namespace Verif.Arr

/-- A two-dimensional array: numbers of rows and columns, entries (those outside are junk). -/
structure Arr (α : Type) where
  rows : Nat
  cols : Nat
  at_ : Nat → Nat → α

inductive Err where
  | valueError
  | typeError
deriving DecidableEq

variable {α : Type}

/-- A bound of a slice of something of length `n`: negative ones count from the end, and all are
cut to the range. -/
def bound (n : Nat) (i : Int) : Nat :=
  if i < 0 then (n + i).toNat else min n i.toNat

/-- `m[lo:hi, :]` for normalised bounds. -/
def rowSlice (m : Arr α) (lo hi : Nat) : Arr α :=
  ⟨hi - lo, m.cols, fun i j => m.at_ (lo + i) j⟩

/-- `m[:, lo:hi]` -/
def colSlice (m : Arr α) (lo hi : Nat) : Arr α :=
  ⟨m.rows, hi - lo, fun i j => m.at_ i (lo + j)⟩

/-- `np.vstack((a, b))` -/
def vstack (a b : Arr α) : Except Err (Arr α) :=
  if a.cols = b.cols then
    .ok ⟨a.rows + b.rows, a.cols, fun i j => if i < a.rows then a.at_ i j else b.at_ (i - a.rows) j⟩
  else .error .valueError

/-- `np.hstack((a, b))` -/
def hstack (a b : Arr α) : Except Err (Arr α) :=
  if a.rows = b.rows then
    .ok ⟨a.rows, a.cols + b.cols, fun i j => if j < a.cols then a.at_ i j else b.at_ i (j - a.cols)⟩
  else .error .valueError

/-- `np.zeros((r, c))` -/
def zeros [Zero α] (r c : Nat) : Arr α := ⟨r, c, fun _ _ => 0⟩

/-- `expand_matrix`, utilities.py:49-76. -/
def expandMatrix [Zero α] (m : Arr α) (addRow addCol : Bool) : Except Err (Arr α) :=
  match (if addCol then hstack m (zeros m.rows 1) else .ok m) with
  | .error e => .error e
  | .ok m' =>
    if addRow then vstack m' (zeros 1 (if addCol then m.cols + 1 else m.cols)) else .ok m'

/-- `set_submatrix`, utilities.py:78-97: numpy refuses a block whose shape is not that of the
addressed part, unless it can be broadcast (a dimension of 1). -/
def setSubmatrix (row col : Nat) (dest src : Arr α) : Except Err (Arr α) :=
  let r0 := min dest.rows row
  let r1 := min dest.rows (row + src.rows)
  let c0 := min dest.cols col
  let c1 := min dest.cols (col + src.cols)
  if (src.rows = r1 - r0 ∨ src.rows = 1) ∧ (src.cols = c1 - c0 ∨ src.cols = 1) then
    .ok { dest with at_ := fun i j =>
      if r0 ≤ i ∧ i < r1 ∧ c0 ≤ j ∧ j < c1 then src.at_ (i - r0) (j - c0) else dest.at_ i j }
  else .error .valueError

/-- `remove_row_and_col`, utilities.py:99-132; `none` in the result is Python's `None`. -/
def removeRowAndCol (m : Arr α) (rrow rcol : Option Int) : Except Err (Option (Arr α)) :=
  match rrow, rcol with
  | some r, some c =>
    let top := rowSlice m 0 (bound m.rows r)
    let bot := rowSlice m (bound m.rows (r + 1)) m.rows
    match hstack (colSlice top 0 (bound m.cols c)) (colSlice top (bound m.cols (c + 1)) m.cols) with
    | .error e => .error e
    | .ok a =>
      match hstack (colSlice bot 0 (bound m.cols c)) (colSlice bot (bound m.cols (c + 1)) m.cols)
      with
      | .error e => .error e
      | .ok b => (vstack a b).map some
  | some r, none =>
    (vstack (rowSlice m 0 (bound m.rows r)) (rowSlice m (bound m.rows (r + 1)) m.rows)).map some
  | none, some c =>
    (hstack (colSlice m 0 (bound m.cols c)) (colSlice m (bound m.cols (c + 1)) m.cols)).map some
  | none, none => .ok none

/-- `remove_row`, utilities.py:134-152: `None + 1` is a `TypeError`. -/
def removeRow (m : Arr α) (rrow : Option Int) : Except Err (Arr α) :=
  match rrow with
  | none => .error .typeError
  | some r => vstack (rowSlice m 0 (bound m.rows r)) (rowSlice m (bound m.rows (r + 1)) m.rows)

end Verif.Arr
