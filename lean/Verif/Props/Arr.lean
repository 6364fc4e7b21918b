import Verif.Model.Arr
import Mathlib.Tactic.Common
import Mathlib.Data.Rat.Defs

/-!
C63: matrix helpers.
-/

namespace Verif.Arr
variable {α : Type}

/-- Equal as arrays: the same shape and entries. -/
def Same (a b : Arr α) : Prop :=
  a.rows = b.rows ∧ a.cols = b.cols ∧ ∀ i j, i < a.rows → j < a.cols → a.at_ i j = b.at_ i j

/-- The index before the removal of `r` of what has index `i` after it. -/
def skip (r i : Nat) : Nat := if i < r then i else i + 1

theorem bound_nat (n i : Nat) : bound n (i : Int) = min n i := by
  unfold bound
  rw [if_neg (by omega)]
  simp

theorem bound_succ (n i : Nat) : bound n ((i : Int) + 1) = min n (i + 1) := bound_nat n (i + 1)

/-- C63: `expand_matrix` keeps all entries and adds zeros. -/
theorem C63_expand [Zero α] (m : Arr α) (addRow addCol : Bool) :
    ∃ m', expandMatrix m addRow addCol = .ok m' ∧
      m'.rows = m.rows + addRow.toNat ∧ m'.cols = m.cols + addCol.toNat ∧
      (∀ i j, i < m.rows → j < m.cols → m'.at_ i j = m.at_ i j) ∧
      (∀ i j, i < m'.rows → j < m'.cols → m.rows ≤ i ∨ m.cols ≤ j → m'.at_ i j = 0) := by
  cases addCol <;> cases addRow
  · refine ⟨m, rfl, rfl, rfl, fun _ _ _ _ => rfl, fun i j h1 h2 h3 => ?_⟩
    omega
  · have he : expandMatrix m true false = .ok ⟨m.rows + 1, m.cols, fun i j =>
        if i < m.rows then m.at_ i j else 0⟩ := by
      simp [expandMatrix, vstack, zeros]
    refine ⟨_, he, rfl, rfl, ?_, ?_⟩
    · intro i j h1 h2
      simp [h1]
    · intro i j h1 h2 h3
      simp only at h1 h2 ⊢
      rw [if_neg (by omega)]
  · have he : expandMatrix m false true = .ok ⟨m.rows, m.cols + 1, fun i j =>
        if j < m.cols then m.at_ i j else 0⟩ := by
      simp [expandMatrix, hstack, zeros]
    refine ⟨_, he, rfl, rfl, ?_, ?_⟩
    · intro i j h1 h2
      simp [h2]
    · intro i j h1 h2 h3
      simp only at h1 h2 ⊢
      rw [if_neg (by omega)]
  · refine ⟨_, by simp only [expandMatrix, hstack, vstack, zeros, if_true]; rfl, rfl, rfl, ?_, ?_⟩
    · intro i j h1 h2
      simp [h1, h2]
    · intro i j h1 h2 h3
      simp only at h1 h2 ⊢
      by_cases hi : i < m.rows
      · rw [if_pos hi, if_neg (by omega)]
      · rw [if_neg hi]

/-- C63: `set_submatrix` writes exactly the addressed block, if the block fits. -/
theorem C63_set (row col : Nat) (dest src : Arr α) (hr : row + src.rows ≤ dest.rows)
    (hc : col + src.cols ≤ dest.cols) :
    ∃ m, setSubmatrix row col dest src = .ok m ∧ m.rows = dest.rows ∧ m.cols = dest.cols ∧
      (∀ i j, i < src.rows → j < src.cols → m.at_ (row + i) (col + j) = src.at_ i j) ∧
      (∀ i j, (i < row ∨ row + src.rows ≤ i ∨ j < col ∨ col + src.cols ≤ j) →
        m.at_ i j = dest.at_ i j) := by
  have e1 : min dest.rows row = row := by omega
  have e2 : min dest.rows (row + src.rows) = row + src.rows := by omega
  have e3 : min dest.cols col = col := by omega
  have e4 : min dest.cols (col + src.cols) = col + src.cols := by omega
  simp only [setSubmatrix, e1, e2, e3, e4]
  rw [if_pos ⟨Or.inl (by omega), Or.inl (by omega)⟩]
  refine ⟨_, rfl, rfl, rfl, fun i j h1 h2 => ?_, fun i j h => ?_⟩
  · simp only
    rw [if_pos (by omega)]
    simp
  · simp only
    rw [if_neg (by omega)]

/-- A block that does not fit is refused or nothing is changed; no entry is written out of its
place. -/
theorem C63_set_outside (row col : Nat) (dest src m : Arr α)
    (h : dest.rows < row + src.rows ∨ dest.cols < col + src.cols)
    (hm : setSubmatrix row col dest src = .ok m) : Same m dest := by
  simp only [setSubmatrix] at hm
  split at hm
  · rename_i hcond
    cases hm
    refine ⟨rfl, rfl, fun i j hi hj => ?_⟩
    simp only at hi hj ⊢
    rw [if_neg]
    omega
  · cases hm

/-- C63: `remove_row_and_col` removes exactly the row and the column. -/
theorem C63_remove_row_and_col (m : Arr α) (r c : Nat) (hr : r < m.rows) (hc : c < m.cols) :
    ∃ m', removeRowAndCol m (some r) (some c) = .ok (some m') ∧
      m'.rows = m.rows - 1 ∧ m'.cols = m.cols - 1 ∧
      ∀ i j, i < m'.rows → j < m'.cols → m'.at_ i j = m.at_ (skip r i) (skip c j) := by
  have e1 : min m.rows r = r := by omega
  have e2 : min m.rows (r + 1) = r + 1 := by omega
  have e3 : min m.cols c = c := by omega
  have e4 : min m.cols (c + 1) = c + 1 := by omega
  simp only [removeRowAndCol, bound_nat, bound_succ, e1, e2, e3, e4, hstack, colSlice, rowSlice,
    vstack, if_true, Except.map]
  refine ⟨_, rfl, by simp only; omega, by simp only; omega, fun i j hi hj => ?_⟩
  simp only [Nat.sub_zero, Nat.zero_add, skip] at hi hj ⊢
  by_cases h1 : i < r
  · simp only [h1, if_true]
    by_cases h2 : j < c
    · simp [h2]
    · simp only [h2, if_false]
      congr 1
      omega
  · simp only [h1, if_false]
    by_cases h2 : j < c
    · simp only [h2, if_true]
      congr 1
      omega
    · simp only [h2, if_false]
      congr 1 <;> omega

/-- With `None` for the column, or for the row. -/
theorem C63_remove_one (m : Arr α) (r c : Nat) (hr : r < m.rows) (hc : c < m.cols) :
    (∃ m', removeRowAndCol m (some r) none = .ok (some m') ∧ m'.rows = m.rows - 1 ∧
      m'.cols = m.cols ∧ ∀ i j, i < m'.rows → j < m'.cols → m'.at_ i j = m.at_ (skip r i) j) ∧
    (∃ m', removeRowAndCol m none (some c) = .ok (some m') ∧ m'.rows = m.rows ∧
      m'.cols = m.cols - 1 ∧
      ∀ i j, i < m'.rows → j < m'.cols → m'.at_ i j = m.at_ i (skip c j)) := by
  have e1 : min m.rows r = r := by omega
  have e2 : min m.rows (r + 1) = r + 1 := by omega
  have e3 : min m.cols c = c := by omega
  have e4 : min m.cols (c + 1) = c + 1 := by omega
  simp only [removeRowAndCol, bound_nat, bound_succ, e1, e2, e3, e4, hstack, colSlice, rowSlice,
    vstack, if_true, Except.map]
  refine ⟨⟨_, rfl, by simp only; omega, rfl, fun i j hi hj => ?_⟩,
    ⟨_, rfl, rfl, by simp only; omega, fun i j hi hj => ?_⟩⟩
  · simp only [Nat.sub_zero, Nat.zero_add, skip] at hi hj ⊢
    by_cases h1 : i < r
    · simp [h1]
    · simp only [h1, if_false]
      congr 1
      omega
  · simp only [Nat.sub_zero, Nat.zero_add, skip] at hi hj ⊢
    by_cases h1 : j < c
    · simp [h1]
    · simp only [h1, if_false]
      congr 1
      omega

/-- C63: `remove_row` removes exactly the row. -/
theorem C63_remove_row (m : Arr α) (r : Nat) (hr : r < m.rows) :
    ∃ m', removeRow m (some r) = .ok m' ∧ m'.rows = m.rows - 1 ∧ m'.cols = m.cols ∧
      ∀ i j, i < m'.rows → j < m'.cols → m'.at_ i j = m.at_ (skip r i) j := by
  have e1 : min m.rows r = r := by omega
  have e2 : min m.rows (r + 1) = r + 1 := by omega
  simp only [removeRow, bound_nat, bound_succ, e1, e2, rowSlice, vstack, if_true]
  refine ⟨_, rfl, by simp only; omega, rfl, fun i j hi hj => ?_⟩
  simp only [Nat.sub_zero, Nat.zero_add, skip] at hi hj ⊢
  by_cases h1 : i < r
  · simp [h1]
  · simp only [h1, if_false]
    congr 1
    omega

/-- C63: removing what was added gives the matrix back. -/
theorem C63_roundtrip [Zero α] (m m1 : Arr α) (h : expandMatrix m true true = .ok m1) :
    ∃ m2, removeRowAndCol m1 (some m.rows) (some m.cols) = .ok (some m2) ∧ Same m2 m := by
  obtain ⟨m', h1, hr, hc, hold, -⟩ := C63_expand m true true
  rw [h] at h1
  cases h1
  obtain ⟨m2, h2, hr2, hc2, he⟩ := C63_remove_row_and_col m1 m.rows m.cols
    (by rw [hr]; simp) (by rw [hc]; simp)
  simp only [Bool.toNat_true] at hr hc
  refine ⟨m2, h2, by omega, by omega, fun i j hi hj => ?_⟩
  rw [he i j hi hj]
  simp only [skip]
  rw [if_pos (by omega), if_pos (by omega)]
  exact hold i j (by omega) (by omega)

/-- The documented `None` of `remove_row` ("no row will be removed") raises. -/
theorem C63_remove_row_none_refuted (m : Arr α) : removeRow m none = .error .typeError := rfl

/-- And `remove_row_and_col(m, None, None)` returns `None` instead of the matrix. -/
theorem C63_remove_none_refuted (m : Arr α) : removeRowAndCol m none none = .ok none := rfl

/-- Index -1, the last row in numpy: all rows but the last are repeated instead. -/
theorem C63_negative_refuted (m : Arr α) (hr : 0 < m.rows) :
    ∃ m', removeRow m (some (-1)) = .ok m' ∧ m'.rows = 2 * m.rows - 1 := by
  have e1 : bound m.rows (-1) = m.rows - 1 := by
    unfold bound
    rw [if_pos (by omega)]
    omega
  have e2 : bound m.rows (-1 + 1) = 0 := by
    unfold bound
    rw [if_neg (by omega)]
    simp
  simp only [removeRow, e1, e2, rowSlice, vstack, if_true]
  exact ⟨_, rfl, by simp only; omega⟩

/-- A 2×3 array. -/
def demo : Arr ℚ := ⟨2, 3, fun i j => 10 * i + j⟩

example : (removeRowAndCol demo (some 0) (some 1)).toOption.bind
    (fun o => o.map (fun m => (m.rows, m.cols, m.at_ 0 0, m.at_ 0 1))) = some (1, 2, 10, 12) := by
  decide +kernel
example : (setSubmatrix 1 1 demo ⟨1, 2, fun _ j => 100 + j⟩).toOption.map
    (fun m => (m.at_ 0 1, m.at_ 1 0, m.at_ 1 1, m.at_ 1 2)) = some (1, 10, 100, 101) := by
  decide +kernel
example : (setSubmatrix 1 2 demo ⟨1, 2, fun _ j => 100 + j⟩).toOption.isNone = true := by
  decide +kernel

end Verif.Arr
