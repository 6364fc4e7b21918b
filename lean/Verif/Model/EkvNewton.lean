import Verif.Model.Ekv
import Verif.Model.Circuit

/-!
Model of `get_ismall` (ekv.py:703-726): the normalised current for a normalised voltage by the function
`scipy.optimize.newton` with first and second derivative, and of the guesses it is started from
(ekv.py:102, 138, 159-160, 575-576, 585-586, 610).

`newton` is a function of scipy. Its loop is modelled here for real numbers in the two forms it had since the lowest version
allowed by `setup.py` (0.14): Halley's step always (until 1.1, `guard = false`), and Halley's step only if the correction is less
than one, with a test for an exact zero before each step (since 1.2, `guard = true`). `rtol` is 0 and `maxiter` 500 (line 724).
The messages for a derivative of zero are left out: `_vsmall_obj_prime` is never zero. `NaN` voltages do not exist in the model.
-/

namespace Verif.Ekv
open Real Verif.Circuit

/-- the step of `newton` at `x` -/
noncomputable def hstep (guard : Bool) (e : Eps) (v x : ℝ) : ℝ :=
  let s := obj v x / objPrime e x
  let adj := s * objPrime2 e x / objPrime e x / 2
  if guard = true ∧ ¬ |adj| < 1 then s else s / (1 - adj)

/-- the loop of `newton`, `n` more iterations -/
noncomputable def newton (guard : Bool) (e : Eps) (v tol : ℝ) : Nat → ℝ → Except Err ℝ
  | 0, _ => .error .exn
  | n + 1, x =>
    if guard = true ∧ obj v x = 0 then .ok x
    else
      let p := x - hstep guard e v x
      if |p - x| < tol ∨ (guard = true ∧ |p - x| = tol) then .ok p else newton guard e v tol n p

/-- `tol`, line 724 -/
noncomputable def ntol : ℝ := 1.48e-8

/-- `get_ismall`, lines 703-726, with the guess `x` -/
noncomputable def ismall (guard : Bool) (e : Eps) (v x : ℝ) : Except Err ℝ :=
  match newton guard e v ntol 500 x with
  | .ok i => .ok (max i (10 * e.eps))
  | .error r => .error r

/-- `INIT_IFRN_GUESS`, line 138 -/
def initGuess : ℝ := 1

/-- `ISMALL_GUESS_MIN`, line 102 -/
noncomputable def guessMin : ℝ := 1e-10

/-- The normalised currents at a list of voltages one after the other, each started from the one before (lines 575-576, 610). -/
noncomputable def ismalls (guard : Bool) (e : Eps) (i : ℝ) : List ℝ → Except Err (List ℝ)
  | [] => .ok []
  | v :: vs =>
    match ismall guard e v (max i guessMin) with
    | .error r => .error r
    | .ok j =>
      match ismalls guard e j vs with
      | .error r => .error r
      | .ok l => .ok (j :: l)

end Verif.Ekv
