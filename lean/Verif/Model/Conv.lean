import Mathlib.Algebra.Order.Field.Basic

/-!
Model of the convergence checks, ahkab/utilities.py:392-549.

Vectors are lists over an ordered field (exact arithmetic; no NaN or infinity). The
`debug` branch of `custom_convergence_check` (lines 528-538) is modelled separately; it is
never reached from `convergence_check`, which does not hand its `debug` argument on
(lines 422-428).
-/

namespace Verif.Conv

variable {K : Type} [Field K] [LinearOrder K]

/-- Tolerances from options.py:38-54. -/
structure Tol (K : Type) where
  vea : K
  ver : K
  iea : K
  ier : K

/-- `numpy.allclose(a, b, rtol, atol)`: `|a - b| <= atol + rtol*|b|` everywhere. -/
def allclose (a b : List K) (rtol atol : K) : Bool :=
  (List.zip a b).all (fun p => decide (|p.1 - p.2| ≤ atol + rtol * |p.2|))

/-- `custom_convergence_check`, `debug=False`. utilities.py:519-548 -/
def customCheck (x dx res : List K) (er ea eres : K) : Bool :=
  if x.length ≠ 0 then
    allclose x (List.zipWith (· + ·) x dx) er ea &&
      allclose res (List.replicate res.length 0) 0 eres
  else true

/-- `custom_convergence_check`, `debug=True`, utilities.py:529-538: the loop stops at the
first offending entry. -/
def customCheckDebugLoop (er ea eres : K) : List K → List K → List K → List Bool
  | x :: xs, d :: ds, r :: rs =>
    if |d| < er * |x| + ea ∧ |r| < eres then
      true :: customCheckDebugLoop er ea eres xs ds rs
    else [false]
  | _, _, _ => []

/-- The value returned with `debug=True`. -/
def customCheckDebug (x dx res : List K) (er ea eres : K) : Bool × List Bool :=
  let l := customCheckDebugLoop er ea eres x dx res
  (!l.contains false, l)

/-- `custom_convergence_check` with both results, utilities.py:519-549. -/
def customFull (x dx res : List K) (er ea eres : K) (debug : Bool) : Bool × List Bool :=
  if x.length ≠ 0 then
    if !debug then (customCheck x dx res er ea eres, [])
    else customCheckDebug x dx res er ea eres
  else (true, [])

/-- `voltage_convergence_check`, utilities.py:432-458. -/
def voltageFull (t : Tol K) (x dx res : List K) (debug : Bool) : Bool × List Bool :=
  customFull x dx res t.ver t.vea t.iea debug

/-- `current_convergence_check`, utilities.py:461-487. -/
def currentFull (t : Tol K) (x dx res : List K) (debug : Bool) : Bool × List Bool :=
  customFull x dx res t.ier t.iea t.vea debug

/-- `convergence_check`, utilities.py:392-429: the two checks are called without `debug`
(default `False`), whatever the caller asked for. -/
def convergenceFull (t : Tol K) (x dx res : List K) (n : Nat) (_debug : Bool) :
    Bool × List Bool :=
  let v := voltageFull t (x.take n) (dx.take n) (res.take n) false
  let i := currentFull t (x.drop n) (dx.drop n) (res.drop n) false
  (v.1 && i.1, v.2 ++ i.2)

/-- The flag returned by `convergence_check`. -/
def convergenceCheck (t : Tol K) (x dx res : List K) (n : Nat) : Bool :=
  (convergenceFull t x dx res n false).1

end Verif.Conv
