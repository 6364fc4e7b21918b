import Verif.Model.Homotopy
import Verif.Model.Newton

/-!
Model of the operating point analysis: `dc_solve` (dc_analysis.py:129-320) with the numbers
it computes, and `op_analysis` (dc_analysis.py:598-687). `Ntran` is zero except in transient
analysis.

`choose` and `after` are the control flow of `Model.Homotopy`, `mdnSolver` is the Newton
solver of `Model.Newton` (without overflow). Printing and writing of files is left out. The guess (`get_dc_guess`, see
`Model.Guess`) is an argument.
-/

namespace Verif.Op
open Verif.Homotopy Matrix
open Verif.Conv (Tol)

variable {K : Type} [Field K] [LinearOrder K]

/-- The circuit: the reduced matrices, the vectors `Ndc` (with the time dependent sources) and
`Ntran`, the number of nodes without the reference, and what
the non-linear elements contribute. -/
structure Circ (K : Type) (m : Nat) where
  mna : Matrix (Fin m) (Fin m) K
  N : Fin m → K
  Ntran : Fin m → K
  nn : Nat
  nonlinear : Bool
  J : (Fin m → K) → Matrix (Fin m) (Fin m) K
  Tx : (Fin m → K) → (Fin m → K)
  locked : List (Nat × Nat)

/-- `build_gmin_matrix`, dc_analysis.py:323-351. -/
def gminMat {m : Nat} (nn : Nat) (g : K) : Matrix (Fin m) (Fin m) K :=
  Matrix.diagonal fun i => if i.val < nn then g else 0

/-- `source_stepping["factors"]`, dc_analysis.py:456-457. -/
def srcFactor (i : Nat) : K :=
  ([1/1000, 5/1000, 1/100, 3/100, 1/10, 3/10, 5/10, 7/10, 8/10, 9/10] : List K).getD i 0

/-- The system passed to the Newton solver, lines 259-278. The factors of Gmin stepping are
-1, -2, ... (lines 452-453); `g` is what the argument `Gmin` was built with (0: none). -/
def problem {m : Nat} (c : Circ K m) (g : K) (y : Sys) : Newton.Problem K m :=
  { mna := match y with
      | .full => c.mna + gminMat c.nn g
      | .gmin i => gminMat c.nn (1 / 10 ^ (i + 1)) + c.mna
      | .src _ => c.mna + gminMat c.nn g
    T := match y with
      | .full => c.N + c.Ntran
      | .gmin _ => c.N + c.Ntran
      | .src i => fun k => (srcFactor i : K) * c.N k + c.Ntran k
    nonlinear := c.nonlinear
    J := c.J
    Tx := c.Tx
    locked := c.locked
    nv := c.nn + 1 }

/-- Options: which methods (`Homotopy.Opts`), damping, tolerances, `dc_max_nr_iter`. -/
structure OOpts (K : Type) where
  meth : Homotopy.Opts
  newton : Newton.Opts K
  tol : Tol K
  maxit : Nat

/-- What one call of the Newton solver leaves, lines 279-293: the new `x` and `converged`
(`none`: an exception that is not caught, `MAXIT` being zero). -/
noncomputable def attempt {m : Nat} (o : OOpts K) (p : Newton.Problem K m) (x : Fin m → K) :
    Option ((Fin m → K) × Bool) :=
  match Newton.mdnSolver o.newton o.tol p o.maxit (some x) with
  | .ok r => some (r.x, r.converged)
  | .error .singular => some (x, false)
  | .error .unbound => none

/-- How `dc_solve` ends. -/
inductive Out (α : Type) where
  | solved (x : α)
  | failed
  | raised
  | outOfFuel

/-- The `while` loop of `dc_solve`, lines 258-319, with a bound on the number of passes. -/
noncomputable def loopX {m : Nat} (o : OOpts K) (c : Circ K m) (g : K) :
    Nat → State → (Fin m → K) → Out (Fin m → K)
  | 0, _, _ => .outOfFuel
  | k + 1, s, x => match choose o.meth s with
    | .error _ => .raised
    | .ok y => match attempt o (problem c g y) x with
      | none => .raised
      | some (x', conv) => match after o.meth { s with sys := some y } conv with
        | .next s' => loopX o c g k s' x'
        | .success => .solved x'
        | .failure => .failed

/-- `dc_solve` (`fuel` is not in the code; 22 passes are enough, see C17). -/
noncomputable def dcSolve {m : Nat} (o : OOpts K) (c : Circ K m) (g : K) (x0 : Option (Fin m → K))
    (fuel : Nat := 64) : Out (Fin m → K) :=
  loopX o c g fuel (setNext o.meth init) (x0.getD 0)

/-- An operating point, and the value of its attribute `gmin`. -/
structure OpSol (K : Type) (m : Nat) where
  x : Fin m → K
  gmin : K

/-- Where the solution starts, lines 619-620 and 637-638: `use` is `options.dc_use_guess` as a
truth value, `dcg` the result of `get_dc_guess`. -/
def startPoint {α : Type} (use guess : Bool) (x0 dcg : Option α) : Option α :=
  let guess := if !use then false else guess
  match x0 with
  | some x => some x
  | none => if guess then dcg else none

/-- `op_analysis`, lines 640-687 (`none`: an exception; `some none`: `None`). -/
noncomputable def opAnalysis {m : Nat} (o : OOpts K) (c : Circ K m) (gmin : K)
    (x0 : Option (Fin m → K)) : Option (Option (OpSol K m)) :=
  match dcSolve o c gmin x0 with
  | .failed => some none
  | .solved x1 => match dcSolve o c 0 (some x1) with
    | .failed => some (some ⟨x1, gmin⟩)
    | .solved x2 => some (some ⟨x2, 0⟩)
    | _ => none
  | _ => none

end Verif.Op
