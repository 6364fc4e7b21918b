import Mathlib.LinearAlgebra.Matrix.NonsingularInverse
import Mathlib.Data.Matrix.Mul
import Verif.Model.Arr

/-!
Model of the periodic steady state analyses: the update of the shooting method (shooting.py:
184-218, 360-379) and the matrix and residual of the brute-force method (bfpss.py:155-334).

Exact arithmetic over a field. `np.linalg.solve(A, b)` and `np.linalg.inv(A)` are the inverse of
Mathlib, which is a true inverse exactly for invertible matrices; a singular matrix raises
`LinAlgError` in the code, so theorems assume invertibility.
-/

namespace Verif.Pss
open Matrix

section shooting
variable {n : Type} [Fintype n] [DecidableEq n] {K : Type} [Field K]

/-- First loop of `_compute_dxN`, shooting.py:361-363, after `k` rounds. -/
noncomputable def mat1 (MA : Nat → Matrix n n K) (MB : Matrix n n K) : Nat → Matrix n n K
  | 0 => 1
  | k + 1 => -((MA k)⁻¹ * (MB * mat1 MA MB k))

/-- The inner loop, lines 367-368: `d` rounds from `index2 = i + 1`. -/
noncomputable def mat3 (MA : Nat → Matrix n n K) (MB : Matrix n n K) (T : Nat → n → K) (i : Nat) :
    Nat → n → K
  | 0 => -((MA i)⁻¹ *ᵥ T i)
  | d + 1 => -((MA (i + 1 + d))⁻¹ *ᵥ (MB *ᵥ mat3 MA MB T i d))

/-- Second loop, lines 364-369: `temp_mat2` is the sum over the points. -/
noncomputable def mat2 (MA : Nat → Matrix n n K) (MB : Matrix n n K) (T : Nat → n → K)
    (points : Nat) : n → K :=
  ((List.range points).map (fun i => mat3 MA MB T i (points - (i + 1)))).sum

/-- `_compute_dxN`, shooting.py:360-373. -/
noncomputable def dxN (MA : Nat → Matrix n n K) (MB : Matrix n n K) (T : Nat → n → K)
    (points : Nat) : n → K :=
  (1 - mat1 MA MB points)⁻¹ *ᵥ mat2 MA MB T points

/-- `_compute_dx`, shooting.py:376-379. -/
noncomputable def computeDx (MA : Matrix n n K) (MB : Matrix n n K) (T : n → K) (prev : n → K) :
    n → K :=
  -(MA⁻¹ *ᵥ (MB *ᵥ prev + T))

/-- The updates of the points, shooting.py:204-217, for `index < points - 1`. -/
noncomputable def dxUpTo (MA : Nat → Matrix n n K) (MB : Matrix n n K) (T : Nat → n → K)
    (points : Nat) : Nat → n → K
  | 0 => computeDx (MA 0) MB (T 0) (dxN MA MB T points)
  | i + 1 => computeDx (MA (i + 1)) MB (T (i + 1)) (dxUpTo MA MB T points i)

/-- The list `dx` after the loop: the last entry is `dxN` (line 218). -/
noncomputable def dx (MA : Nat → Matrix n n K) (MB : Matrix n n K) (T : Nat → n → K)
    (points : Nat) (i : Nat) : n → K :=
  if i + 1 = points then dxN MA MB T points else dxUpTo MA MB T points i

/-- The index of the point before, shooting.py:187-190. -/
def prev (points i : Nat) : Nat := if i = 0 then points - 1 else i - 1

/-- `_build_static_MAass_and_MBass`, lines 271-275. -/
def static (mna D : Matrix n n K) (h : K) : Matrix n n K × Matrix n n K :=
  (mna + (1 / h) • D, (-1 / h) • D)

/-- The vector `Tass` of line 195 for a linear circuit: the part of
`_get_variable_MAass_and_Tass` (line 355) and the static one. -/
def tass (mna D : Matrix n n K) (h : K) (Ts : Nat → n → K) (points : Nat) (x : Nat → n → K)
    (i : Nat) : n → K :=
  ((1 / h) • D) *ᵥ x i + mna *ᵥ x i + ((-1 / h) • D) *ᵥ x (prev points i) + Ts i

end shooting

section bruteForce
variable {K : Type} [Field K]

/-- `set_submatrix` of an `n` by `n` block that fits (see `C63_set`). -/
def setBlock (n row col : Nat) (M : Nat → Nat → K) (B : Nat → Nat → K) : Nat → Nat → K :=
  fun i j => if row ≤ i ∧ i < row + n ∧ col ≤ j ∧ j < col + n then B (i - row) (j - col) else M i j

/-- The unit matrix. -/
def eye (i j : Nat) : K := if i = j then 1 else 0

/-- The block written for `li`, `ci`, lines 314-326 (`none`: `continue`). -/
def blockAt (mna D : Nat → Nat → K) (h : K) (points li ci : Nat) : Option (Nat → Nat → K) :=
  if li = 0 then
    if ci = 0 then some eye
    else if ci = points - 1 then some (fun i j => -eye i j)
    else none
  else
    if ci = li then some (fun i j => mna i j + 1 / h * D i j)
    else if ci + 1 = li then some (fun i j => -1 / h * D i j)
    else none

/-- One round of the inner loop. -/
def putBlock (mna D : Nat → Nat → K) (h : K) (n points li : Nat) (M : Nat → Nat → K) (ci : Nat) :
    Nat → Nat → K :=
  match blockAt mna D h points li ci with
  | some B => setBlock n (li * n) (ci * n) M B
  | none => M

/-- One round of the outer loop. -/
def putRow (mna D : Nat → Nat → K) (h : K) (n points : Nat) (M : Nat → Nat → K) (li : Nat) :
    Nat → Nat → K :=
  (List.range points).foldl (putBlock mna D h n points li) M

/-- `_build_CMAT`, bfpss.py:295-334. -/
def buildCMAT (mna D : Nat → Nat → K) (h : K) (n points : Nat) : Nat → Nat → K :=
  (List.range points).foldl (putRow mna D h n points) (fun _ _ => 0)

/-- `CMAT*x` for a sparse matrix: the matrix product. -/
def mulVec (S : Nat) (M : Nat → Nat → K) (x : Nat → K) (i : Nat) : K :=
  ((List.range S).map (fun j => M i j * x j)).sum

/-- `residuo`, bfpss.py:223, for a sparse or a dense `CMAT` of size `S` and columns `x` and `b`
(the sum of the others). A dense numpy array times a column is broadcast: every column of the
result is multiplied by the entries of `x`. -/
def residual (dense : Bool) (S : Nat) (M : Nat → Nat → K) (x b : Nat → K) : Verif.Arr.Arr K :=
  if dense then ⟨S, S, fun i j => M i j * x i + b i⟩
  else ⟨S, 1, fun i _ => mulVec S M x i + b i⟩

/-- `sparse`, bfpss.py:137, with `options.dense_matrix_limit`. -/
def isSparse (nOfVar points : Nat) : Bool := decide (400 < nOfVar * points)

/-- `_build_Tf`, bfpss.py:358-370. -/
def buildTf (n points : Nat) (sTf : Nat → K) : Nat → K :=
  ((List.range points).drop 1).foldl
    (fun (T : Nat → K) k => fun i => if k * n ≤ i ∧ i < k * n + n then sTf (i - k * n) else T i)
    (fun _ => 0)

end bruteForce

end Verif.Pss
