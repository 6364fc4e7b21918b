import Verif.Model.Conv
import Verif.Model.Circuit
import Mathlib.LinearAlgebra.Matrix.NonsingularInverse

/-!
Model of the damped Newton solver: `get_td` (dc_analysis.py:884-946), `mdn_solver`
(dc_analysis.py:690-840) and `Circuit.get_locked_nodes` (circuit.py:316-336).

Exact arithmetic over an ordered field. Dense and sparse solves are not distinguished. The
contributions of the non-linear elements are two arbitrary functions `J` and `Tx` of the
iterate.
-/

namespace Verif.Newton
open Verif.Conv Matrix

variable {K : Type} [Field K] [LinearOrder K]

/-- `v[i]` with Python's negative indices (out of range, which raises in Python, gives 0). -/
def pyAt {m : Nat} (v : Fin m → K) (i : Int) : K :=
  if h : 0 ≤ i ∧ i < m then v ⟨i.toNat, by omega⟩
  else if h : i < 0 ∧ 0 ≤ (m : Int) + i then v ⟨((m : Int) + i).toNat, by omega⟩
  else 0

/-- Options used by `get_td`, options.py:71-80; `lim` is
`options.nl_voltages_lock_factor * constants.Vth()`. -/
structure Opts (K : Type) where
  dampFirst : Bool := false
  lock : Bool := true
  lim : K

/-- The body of the loop of `get_td`, lines 930-945; the state is `(td, td_new)`. -/
def tdStep {m : Nat} (lim : K) (dx : Fin m → K) (st : K × K) (p : Nat × Nat) : K × K :=
  let tdNew :=
    if p.1 ≠ 0 then
      if p.2 ≠ 0 then
        if |pyAt dx ((p.1 : Int) - 1) - pyAt dx ((p.2 : Int) - 1)| > lim then
          lim / |pyAt dx ((p.1 : Int) - 1) - pyAt dx ((p.2 : Int) - 1)|
        else st.2
      else
        if |pyAt dx ((p.1 : Int) - 1)| > lim then lim / |pyAt dx ((p.1 : Int) - 1)| else st.2
    else
      if |pyAt dx ((p.2 : Int) - 1)| > lim then lim / |pyAt dx ((p.2 : Int) - 1)| else st.2
  (if tdNew < st.1 then tdNew else st.1, tdNew)

/-- The damping of the first iterations, lines 917-926 (`n < 0`: independent of `n`). -/
def tdFirst (o : Opts K) (n : Int) : K :=
  if !o.dampFirst || decide (n < 0) then 1
  else if n < 10 then 1 / 100
  else if n < 20 then 1 / 10
  else 1

/-- `get_td`, dc_analysis.py:884-946. -/
def getTd {m : Nat} (o : Opts K) (dx : Fin m → K) (locked : List (Nat × Nat)) (n : Int) : K :=
  if o.lock then (locked.foldl (tdStep o.lim dx) (tdFirst o n, 1)).1 else tdFirst o n

/-- `Circuit.get_locked_nodes`, circuit.py:316-336: all drive ports (for every built-in
device the drive ports are its `ports`), once per output port. -/
def lockedNodes {α : Type} (circ : List (Circuit.Elem α)) : List (Nat × Nat) :=
  circ.flatMap (fun e => match e with
    | .NL _ _ _ _ ports oports => (List.replicate oports.length ports).flatten
    | _ => [])

/-- `Circuit.is_nonlinear`, circuit.py:302-314. -/
def isNonlinear {α : Type} (circ : List (Circuit.Elem α)) : Bool :=
  circ.any Circuit.Elem.nonlinear

/-- What `mdn_solver` is given. -/
structure Problem (K : Type) (m : Nat) where
  mna : Matrix (Fin m) (Fin m) K
  T : Fin m → K
  nonlinear : Bool
  J : (Fin m → K) → Matrix (Fin m) (Fin m) K
  Tx : (Fin m → K) → (Fin m → K)
  locked : List (Nat × Nat)
  nv : Nat

/-- Result of `mdn_solver`; `dx` (the last increment) is kept for the specification. -/
structure Result (K : Type) (m : Nat) where
  x : Fin m → K
  dx : Fin m → K
  res : Fin m → K
  converged : Bool
  iteration : Nat

inductive NErr where
  | singular | unbound
deriving DecidableEq

/-- `numpy.linalg.solve`: `LinAlgError` if singular. -/
noncomputable def solve {m : Nat} (A : Matrix (Fin m) (Fin m) K) (b : Fin m → K) :
    Option (Fin m → K) :=
  if A.det = 0 then none else some (A⁻¹ *ᵥ b)

/-- `residuo`, line 813. -/
def residual {m : Nat} (p : Problem K m) (x : Fin m → K) : Fin m → K :=
  p.mna *ᵥ x + p.T + (if p.nonlinear then p.Tx x else 0)

/-- The matrix of the linearised system, lines 815-820. -/
def jac {m : Nat} (p : Problem K m) (x : Fin m → K) : Matrix (Fin m) (Fin m) K :=
  p.mna + (if p.nonlinear then p.J x else 0)

/-- Convergence check on vectors. -/
def check {m : Nat} (t : Tol K) (x dx res : Fin m → K) (n : Nat) : Bool :=
  convergenceCheck t (List.ofFn x) (List.ofFn dx) (List.ofFn res) n

/-- The `while iteration < MAXIT` loop, dc_analysis.py:800-829, and the re-run of the check
on failure (832-837). The first argument is `MAXIT - iteration`; `last` holds the variables
of the previous pass (unbound before the first). -/
noncomputable def loop {m : Nat} (o : Opts K) (t : Tol K) (p : Problem K m) :
    Nat → Nat → (Fin m → K) → Option ((Fin m → K) × (Fin m → K)) → Except NErr (Result K m)
  | 0, it, x, last => match last with
    | none => .error .unbound
    | some (dx, res) => .ok ⟨x, dx, res, check t x dx res (p.nv - 1), it⟩
  | k + 1, it, x, _ =>
    let res := residual p x
    match solve (jac p x) (-res) with
    | none => .error .singular
    | some dx =>
      let x' := x + getTd o dx p.locked ((it : Int) + 1) • dx
      if !p.nonlinear then .ok ⟨x', dx, res, true, it + 1⟩
      else if check t x' dx res (p.nv - 1) then .ok ⟨x', dx, res, true, it + 1⟩
      else loop o t p k (it + 1) x' (some (dx, res))

/-- `mdn_solver` with `debug=True` (its default), dc_analysis.py:690-840. -/
noncomputable def mdnSolver {m : Nat} (o : Opts K) (t : Tol K) (p : Problem K m) (maxit : Nat)
    (x0 : Option (Fin m → K)) : Except NErr (Result K m) :=
  loop o t p maxit 0 (x0.getD 0) none

end Verif.Newton
