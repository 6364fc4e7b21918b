import Verif.Model.Homotopy
import Verif.Model.Axes
import Verif.Model.Circuit
import Mathlib.LinearAlgebra.Matrix.NonsingularInverse
import Mathlib.Analysis.Complex.Basic
import Mathlib.Analysis.Real.Pi.Bounds

/-!
Model of `ac.ac_analysis` (ac.py:146-320), given the matrices of `Model.Mna` and `Model.Dyn` and the Jacobian at the
linearization point.

Each frequency is solved by `dc_solve` with an empty circuit (`Dummy circuit for AC`): it has no node, so the matrix of
Gmin stepping is zero, no port is locked, and the circuit counts as linear, so the Newton solver does one iteration.
The control flow is that of `Model.Homotopy`. Exact complex arithmetic. The file, the printing and the
operating point analysis are left out.
-/

namespace Verif.Ac
open Verif.Homotopy Verif.Axes Matrix
open Verif.Circuit (Err)

/-- `mna`, `AC`, `J` and `Nac` after reduction, the number of nodes without the reference, `options.gmin`. -/
structure AcIn (m : Nat) where
  mna : Matrix (Fin m) (Fin m) ℝ
  AC : Matrix (Fin m) (Fin m) ℝ
  J : Matrix (Fin m) (Fin m) ℝ
  Nac : Fin m → ℂ
  nn : Nat
  gmin : ℝ

variable {m : Nat}

/-- `build_gmin_matrix`, dc_analysis.py:323-351, for a circuit with `nn + 1` nodes. -/
noncomputable def gminMat (nn : Nat) (g : ℝ) : Matrix (Fin m) (Fin m) ℂ :=
  Matrix.diagonal fun i => if i.val < nn then (g : ℂ) else 0

/-- `mna + np.multiply(j * omega, AC) + J`, line 294. -/
noncomputable def sysMat (c : AcIn m) (omega : ℝ) : Matrix (Fin m) (Fin m) ℂ :=
  c.mna.map Complex.ofReal + (Complex.I * omega) • c.AC.map Complex.ofReal + c.J.map Complex.ofReal

/-- `numpy.linalg.solve`: `LinAlgError` if singular. -/
noncomputable def solve (A : Matrix (Fin m) (Fin m) ℂ) (b : Fin m → ℂ) : Option (Fin m → ℂ) :=
  open Classical in if A.det = 0 then none else some (A⁻¹ *ᵥ b)

/-- `source_stepping["factors"]`, dc_analysis.py:456-457. -/
noncomputable def srcFactor (i : Nat) : ℂ :=
  ([1/1000, 5/1000, 1/100, 3/100, 1/10, 3/10, 5/10, 7/10, 8/10, 9/10] : List ℂ).getD i 0

/-- The matrix and the vector passed to the Newton solver, dc_analysis.py:259-278: the empty circuit has no node to
which the conductance of Gmin stepping could be connected. -/
noncomputable def problem (c : AcIn m) (omega : ℝ) : Sys → Matrix (Fin m) (Fin m) ℂ × (Fin m → ℂ)
  | .full => (sysMat c omega + gminMat c.nn c.gmin, c.Nac)
  | .gmin i => (gminMat 0 (1 / 10 ^ (i + 1)) + sysMat c omega, c.Nac)
  | .src i => (sysMat c omega + gminMat c.nn c.gmin, srcFactor i • c.Nac)

/-- Options: the methods and `options.nr_damp_first_iters`. -/
structure AOpts where
  meth : Homotopy.Opts
  dampFirst : Bool

/-- One call of the Newton solver, dc_analysis.py:800-829: the new `x` and `converged`. -/
noncomputable def attempt (o : AOpts) (p : Matrix (Fin m) (Fin m) ℂ × (Fin m → ℂ)) (x : Fin m → ℂ) :
    (Fin m → ℂ) × Bool :=
  match solve p.1 (-(p.1 *ᵥ x + p.2)) with
  | none => (x, false)
  | some dx => (x + (if o.dampFirst then (1 / 100 : ℂ) else 1) • dx, true)

/-- How `dc_solve` ends. -/
inductive Out (α : Type) where
  | solved (x : α)
  | failed
  | raised
  | outOfFuel

/-- The `while` loop of `dc_solve`, with a bound on the number of passes. -/
noncomputable def loopC (o : AOpts) (c : AcIn m) (omega : ℝ) : Nat → State → (Fin m → ℂ) → Out (Fin m → ℂ)
  | 0, _, _ => .outOfFuel
  | k + 1, s, x => match choose o.meth s with
    | .error _ => .raised
    | .ok y =>
      match after o.meth { s with sys := some y } (attempt o (problem c omega y) x).2 with
      | .next s' => loopC o c omega k s' (attempt o (problem c omega y) x).1
      | .success => .solved (attempt o (problem c omega y) x).1
      | .failure => .failed

/-- `dc_solve` at one frequency. -/
noncomputable def solveAt (o : AOpts) (c : AcIn m) (omega : ℝ) (x : Fin m → ℂ) : Out (Fin m → ℂ) :=
  loopC o c omega 64 (setNext o.meth init) x

/-- The loop over the frequencies, lines 291-320: `some none` is the result `None`, `none` an exception. -/
noncomputable def sweep (o : AOpts) (c : AcIn m) : List ℝ → (Fin m → ℂ) → List (ℝ × (Fin m → ℂ)) →
    Option (Option (List (ℝ × (Fin m → ℂ))))
  | [], _, acc => some (some acc)
  | w :: r, x, acc => match solveAt o c w x with
    | .solved x' => sweep o c r x' (acc ++ [(w / Real.pi / 2, x')])
    | .failed => some none
    | _ => none

/-- `sweep_type`: `None`, or a string by its upper case form. -/
inductive SweepType where
  | none | log | lin | other
deriving DecidableEq, Repr

/-- The checks and the choice of the axis, lines 203-214; `fuel` bounds the number of values. -/
noncomputable def omegas (t : SweepType) (start stop : ℝ) (points fuel : Nat) : Except Err (List ℝ) :=
  if start = 0 then .error .value
  else if start > stop then .error .value
  else if points < 2 ∧ ¬ start = stop then .error .value
  else match t with
    | .none => .error .attr
    | .log => .ok (collect logNext fuel (logInit (2 * Real.pi * start) (2 * Real.pi * stop) points))
    | .lin => match linInit (2 * Real.pi * start) (2 * Real.pi * stop) (points : ℝ) with
      | some a => .ok (collect linNext fuel a)
      | .none => .error .value
    | .other => .error .value

/-- `ac_analysis` started at `x0` (zero if there is no linearization point). -/
noncomputable def acAnalysis (o : AOpts) (c : AcIn m) (t : SweepType) (start stop : ℝ) (points : Nat)
    (x0 : Fin m → ℂ) : Except Err (Option (List (ℝ × (Fin m → ℂ)))) :=
  match omegas t start stop points (points + 2) with
  | .error e => .error e
  | .ok ws => match sweep o c ws x0 [] with
    | some r => .ok r
    | none => .error .exn

end Verif.Ac
