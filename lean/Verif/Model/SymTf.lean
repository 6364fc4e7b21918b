import Mathlib.Algebra.Polynomial.Eval.Defs
import Mathlib.Algebra.Polynomial.Degree.Defs
import Mathlib.Analysis.Complex.Basic

/-!
Model of transfer functions of symbolic analyses: `calculate_gains` and `get_roots` (symbolic.py:217-249, 573-577) and the text of a set
of transfer functions, `symbolic_solution.__str__` (results.py:1079-1102).

Simplifications: all symbols but `s` have values, so that a gain is a fraction of two polynomials in `s` with complex coefficients (as
`sympy.fraction` returns it); `solve` stands for `sympy.solve(·, s)`; the comparison `gain == gain0` of expressions is "there is no `s` in
the gain"; `gain.subs(s, 0)` with zero denominator (`zoo` or `nan`) is `none`.
-/

namespace Verif.SymTf
open Polynomial

/-- an entry of the dictionary made by `calculate_gains`, symbolic.py:241-247 -/
structure Tf where
  num : ℂ[X]
  den : ℂ[X]
  gain0 : Option ℂ
  poles : List ℂ
  zeros : List ℂ

/-- `get_roots`, symbolic.py:573-577: poles first -/
def getRoots (solve : ℂ[X] → List ℂ) (num den : ℂ[X]) : List ℂ × List ℂ := (solve den, solve num)

/-- symbolic.py:241-247 -/
noncomputable def calculate (solve : ℂ[X] → List ℂ) (num den : ℂ[X]) : Tf :=
  let r := getRoots solve num den
  { num := num, den := den, gain0 := if den.eval 0 = 0 then none else some (num.eval 0 / den.eval 0), poles := r.1, zeros := r.2 }

/-- the gain at a frequency -/
noncomputable def Tf.at (t : Tf) (s : ℂ) : ℂ := t.num.eval s / t.den.eval s

/-- what a line of the text shows -/
inductive Line where
  | gain (key : String) (num den : ℂ[X])
  | gain0 (g : Option ℂ)
  | head (what : String)
  | root (z : ℂ)

/-- `self.results[key]['gain'] == self.results[key]['gain0']`, results.py:1092 -/
def Tf.constant (t : Tf) : Prop := t.num.natDegree = 0 ∧ t.den.natDegree = 0

/-- results.py:1096-1101 for one of `'poles'`, `'zeros'` -/
def rootLines (what : String) (l : List ℂ) : List Line := if l.length = 0 then [] else .head what :: l.map .root

open Classical in
/-- results.py:1090-1101 -/
noncomputable def Tf.lines (key : String) (t : Tf) : List Line :=
  .gain key t.num t.den :: if t.constant then [] else .gain0 t.gain0 :: (rootLines "poles" t.poles ++ rootLines "zeros" t.zeros)

/-- the text of a set of transfer functions, keys sorted (results.py:1083-1101) -/
noncomputable def text (r : List (String × Tf)) : List Line :=
  ((r.mergeSort fun a b => a.1 ≤ b.1).map fun x => x.2.lines x.1).flatten

end Verif.SymTf
