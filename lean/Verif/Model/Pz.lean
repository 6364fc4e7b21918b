import Verif.Model.Dyn
import Mathlib.LinearAlgebra.Matrix.NonsingularInverse
import Mathlib.LinearAlgebra.Matrix.Charpoly.Basic
import Mathlib.Algebra.Order.Group.Abs

/-!
Model of the pole-zero analysis, `calculate_singularities` (pz.py:129-343).

Numbers are elements of a field (ℂ for the poles themselves), matrices are exact, the
eigenvalues are the roots of the characteristic polynomial. Vectors and matrices are indexed
like the unreduced unknowns in the helpers (`MC`, `TV`: entry `r` of the code is entry
`r + 1` here); the reduced matrices are Mathlib matrices. The linearisation of non-linear
circuits is the addition of a Jacobian to the MNA matrix, which is a parameter here.
The random numbers of the retries are parameters.
-/

namespace Verif.Pz
open Verif.Circuit Verif.Mna Verif.Dyn

variable {α : Type} [Field α]

/-- `isinstance(e, Capacitor)` or `isinstance(e, Inductor)` -/
def isReactive : Elem α → Bool
  | .C .. | .L .. => true
  | _ => false

/-- The elements that are not skipped by the loops, with the value of `vde1`/`vde2` for the
voltage-defined ones (pz.py:221-239, 247-262). -/
def reactive : List (Elem α) → Nat → List (Nat × Elem α)
  | [], _ => []
  | e :: r, k =>
    if isReactive e then (k, e) :: reactive r (k + if e.vde then 1 else 0)
    else reactive r (k + if e.vde then 1 else 0)

/-- `e1.value` -/
def valueOf : Elem α → α
  | .C _ _ _ v _ | .L _ _ _ v _ _ => v
  | _ => 0

/-- The two lines `MC[n - 1] += ±1. if n > 0 else 0.` -/
def incidence (n1 n2 : Nat) : Vec α := fun i =>
  (if 0 < n1 ∧ i = n1 then 1 else 0) - (if 0 < n2 ∧ i = n2 then 1 else 0)

/-- `MC` for a reactive element or for an independent source, pz.py:224-237; `nv` is the number
of nodes (`nodes_m1 + 1`). -/
def mc (nv : Nat) (p : Nat × Elem α) : Vec α :=
  match p.2 with
  | .C _ n1 n2 _ _ | .I _ n1 n2 _ => incidence n1 n2
  | .L .. | .V .. => fun i => if i = nv + p.1 then -1 else 0
  | _ => fun _ => 0

/-- a port voltage: `if n1: v += TV[n1 - 1]`, `if n2: v -= TV[n2 - 1]` -/
def portV (n1 n2 : Nat) (TV : Vec α) : α :=
  (if n1 ≠ 0 then TV n1 else 0) - (if n2 ≠ 0 then TV n2 else 0)

/-- the response of a reactive element, pz.py:248-257 -/
def probe (nv : Nat) (p : Nat × Elem α) (TV : Vec α) : α :=
  match p.2 with
  | .C _ n1 n2 _ _ => portV n1 n2 TV
  | .L .. => TV (nv + p.1)
  | _ => 0

/-- the reduced part `M[1:, 1:]` of a matrix of size `n + 1` -/
def red (n : Nat) (M : Mat α) : Matrix (Fin n) (Fin n) α := Matrix.of fun i j => M (i + 1) (j + 1)

/-- `TV = -1. * np.dot(MNAinv, MC)`, pz.py:240 -/
def tv {n : Nat} (W : Matrix (Fin n) (Fin n) α) (b : Vec α) : Vec α := fun i =>
  if h : 0 < i ∧ i - 1 < n then -∑ j, W ⟨i - 1, h.2⟩ j * b (j + 1) else 0

/-- `TCM[dei_victim, dei_source] = v*e1.value`, pz.py:241-265: one row per victim, one column per
source, in the order of the circuit. -/
def tcm {n : Nat} (W : Matrix (Fin n) (Fin n) α) (nv : Nat) (l : List (Nat × Elem α)) :
    Matrix (Fin l.length) (Fin l.length) α :=
  Matrix.of fun i j => probe nv l[i] (tv W (mc nv l[j])) * valueOf l[j].2

/-- `RIIN`, pz.py:258-259: responses to the input source -/
def riin {n : Nat} (W : Matrix (Fin n) (Fin n) α) (nv : Nat) (l : List (Nat × Elem α))
    (src : Nat × Elem α) : Fin l.length → α :=
  fun i => probe nv l[i] (tv W (mc nv src))

/-- `ROUTIN`, pz.py:266-272 -/
def routin {n : Nat} (W : Matrix (Fin n) (Fin n) α) (nv : Nat) (src : Nat × Elem α) (o1 o2 : Nat) : α :=
  portV o1 o2 (tv W (mc nv src))

/-- `ROUT`, pz.py:287-310 -/
def rout {n : Nat} (W : Matrix (Fin n) (Fin n) α) (nv : Nat) (l : List (Nat × Elem α))
    (o1 o2 : Nat) : Fin l.length → α :=
  fun j => portV o1 o2 (tv W (mc nv l[j])) * valueOf l[j].2

/-- `ZTCM = TCM - np.dot(RIIN, ROUT)/ROUTIN`, pz.py:312-320: `RIIN` is tiled, `ROUT` diagonal. -/
def ztcm {n : Nat} (W : Matrix (Fin n) (Fin n) α) (nv : Nat) (l : List (Nat × Elem α))
    (src : Nat × Elem α) (o1 o2 : Nat) : Matrix (Fin l.length) (Fin l.length) α :=
  Matrix.of fun i j => tcm W nv l i j - riin W nv l src i * rout W nv l o1 o2 j / routin W nv src o1 o2

/-- Whether a run with a given shift reports its results, is repeated with a larger shift
(pz.py:275-283 and 325-333) or starts over with a multiple of the shift (pz.py:334-338). -/
inductive Outcome where
  | done | retryAdd | retryMul
deriving DecidableEq, Repr

/-- The matrix that is inverted, pz.py:217. -/
def shifted (n : Nat) (M D : Mat α) (shift : α) : Matrix (Fin n) (Fin n) α :=
  red n M + shift • red n D

section Runs
variable [DecidableEq α]

/-- A run for the poles only, pz.py:215-285; `numpy.linalg.inv` raises an exception for a singular matrix.
Without reactive elements (`TCM is None`) there is nothing to repeat. -/
noncomputable def polesRun (n nv : Nat) (M D : Mat α) (l : List (Nat × Elem α)) (shift : α) : Except Err Outcome :=
  if (shifted n M D shift).det = 0 then .error .exn
  else if l.length ≠ 0 ∧ (tcm (shifted n M D shift)⁻¹ nv l).det = 0 then .ok .retryAdd
  else .ok .done

/-- A run for poles and zeros, pz.py:215-340; `big` is `1e12`, the test on the eigenvalues of `ZTCM` is
that none of them is zero. -/
noncomputable def zerosRun [LT α] [DecidableLT α] (n nv : Nat) (M D : Mat α) (l : List (Nat × Elem α))
    (src : Nat × Elem α) (o1 o2 : Nat) (big : α) (shift : α) : Except Err Outcome :=
  if (shifted n M D shift).det = 0 then .error .exn
  else if l.length = 0 then .ok .done
  else if (tcm (shifted n M D shift)⁻¹ nv l).det = 0 then .ok .retryAdd
  else if rout (shifted n M D shift)⁻¹ nv l o1 o2 ≠ 0 then
    if routin (shifted n M D shift)⁻¹ nv src o1 o2 = 0 ∨
        (ztcm (shifted n M D shift)⁻¹ nv l src o1 o2).det = 0 then .ok .retryAdd
    else .ok .done
  else if shift < big then .ok .retryMul
  else .ok .done

end Runs

/-- The chain of recursive calls: the outcome of each is a function of the shift (everything else is
unchanged), `r k` is the random number drawn by the `k`-th. Result: the shift of the run that
reports, `none` if `fuel` calls do not suffice. -/
def chain {K : Type} [Field K] [LinearOrder K] (run : K → Except Err Outcome) (r : Nat → K) :
    Nat → Nat → K → Except Err (Option K)
  | 0, _, _ => .ok none
  | fuel + 1, k, shift =>
    match run shift with
    | .error x => .error x
    | .ok .done => .ok (some shift)
    | .ok .retryAdd => chain run r fuel (k + 1) (shift + |1 + r k| * 1000)
    | .ok .retryMul => chain run r fuel (k + 1) (shift * |r k + 1| * 10)

/-- `calculate_poles`, pz.py:102-126, as a function of the value returned by
`calculate_singularities`: subscripting a `pz_solution` evaluates `0 in self.data`, which raises
`AttributeError`, either because there is no `data` or because an `int` has no `upper`. -/
def calculatePoles {R : Type} (singularities : Except Err R) : Except Err R :=
  match singularities with
  | .error x => .error x
  | .ok _ => .error .attr

end Verif.Pz
