import Mathlib.LinearAlgebra.Matrix.NonsingularInverse
import Mathlib.LinearAlgebra.Matrix.Notation
import Mathlib.Data.Nat.Factorial.Basic

/-!
Models of the differentiation formulas over a field: `implicit_euler.get_df`
(implicit_euler.py:125-205), `trap.get_df` (trap.py:98-192) and `gear.get_df`
(gear.py:122-208), and of the local error of transient.py:349-351.

Everything is for one component of the solution vector (the code treats the components
alike). The history `pv_array` is given by the functions `t k` (time), `x k` (value) and
`dx k` (derivative) of its `k`-th entry; the checks of its length and of `None` entries are
not modelled: all needed entries are present.
-/

namespace Verif.DF

variable {K : Type} [Field K]

/-- What `get_df` returns: `C1`, `C0`, `x_lte_coeff`, `predict`, `predict_lte_coeff`. -/
structure DFRes (K : Type) where
  c1 : K
  c0 : K
  xLte : K
  pred : K
  predLte : K

/-- `implicit_euler.get_df`, lines 180-205. -/
def implicitEuler (t x : Nat → K) (h : K) : DFRes K where
  c1 := 1 / h
  c0 := -1 / h * x 0
  xLte := 1 / 2 * h
  pred := (x 0 - x 1) / (t 0 - t 1) * h + x 0
  predLte := -(1 / 2) * h * (t 0 + h - t 1)

/-- The matrix `A` of trap.py:166-171. -/
def trapA (t : Nat → K) : Matrix (Fin 3) (Fin 3) K :=
  fun row col =>
    if col = 0 then 1
    else if row = 0 then 0
    else (t row - t 0) ^ (col : Nat)

/-- `trap.get_df`, lines 160-190. -/
noncomputable def trap (t x dx : Nat → K) (h : K) : DFRes K :=
  let alpha := (trapA t)⁻¹.mulVec (fun i : Fin 3 => x i)
  { c1 := 2 / h
    c0 := -1 * (2 / h * x 0 + dx 0)
    xLte := 1 / 12 * h ^ 3
    pred := alpha 2 * h ^ 2 + alpha 1 * h + alpha 0
    predLte := -1 / 6 * h * (t 0 + h - t 1) * (t 0 + h - t 2) }

/-- `s` of gear.py:147-150. -/
def gearS (t : Nat → K) (h : K) (k : Nat) : K := if k = 0 then 0 else h + t 0 - t (k - 1)

/-- `e[k, i]`, lines 153-159. -/
def gearE (s : Nat → K) (k i : Nat) : K := if i = k then 1 else s i / (s i - s k)

/-- `alpha[0, k]`, lines 161-165: a product accumulated over `j`. -/
def gearAlpha (n : Nat) (s : Nat → K) (k : Nat) : K :=
  (List.range (n + 1)).foldl (fun a j => a * gearE s k (j + 1)) 1

/-- `gamma[0, k]` for `k ≥ 1`, lines 168-171. -/
def gearGamma (n : Nat) (s : Nat → K) (k : Nat) : K :=
  gearAlpha n s k * (1 / s (n + 1) - 1 / s k)

/-- `gamma[0, 0]`, lines 173-175. -/
def gearGamma0 (n : Nat) (s : Nat → K) : K :=
  (List.range n).foldl (fun a j => a - gearGamma n s (j + 1)) 0

/-- `gear.get_df` for order `n`, lines 147-208. -/
def gear (n : Nat) (t x : Nat → K) (h : K) : DFRes K :=
  let s := gearS t h
  { c1 := gearGamma0 n s
    c0 := (List.range n).foldl (fun a i => a + gearGamma n s (i + 1) * x i) 0
    xLte := (-1) ^ (n + 1) * (1 / (Nat.factorial (n + 1) : K)) *
      (List.range n).foldl (fun a i => a + s (i + 1) ^ (n + 1) *
        (-1 * gearGamma n s (i + 1) / gearGamma0 n s)) 0
    pred := (List.range (n + 1)).foldl (fun a i => a + gearAlpha n s (i + 1) * x i) 0
    predLte := (List.range (n + 1)).foldl (fun a i => a * s (i + 1))
      (-1 / (Nat.factorial (n + 1) : K)) }

/-- The local error before taking the absolute value, transient.py:351. -/
def lte (r : DFRes K) (x1 : K) : K := r.xLte / (r.predLte - r.xLte) * (r.pred - x1)

end Verif.DF
