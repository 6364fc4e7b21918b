import Verif.Model.Circuit
import Verif.Model.Sweep
import Mathlib.Data.Real.Archimedean

/-!
Model of the whole of `dc_analysis.dc_analysis` (dc_analysis.py:461-595): the tests on the
arguments, both kinds of axis, the look-up of the source and the sweep (`Sweep.loop`); and of
the step computed by `ahkab.new_dc` (ahkab.py:253-319).

Numbers are exact reals; logarithmic axes are modelled for positive end points only (`logb` of
other numbers is not what `np.log10` gives). Elements are given by `part_id` and class.
-/

namespace Verif.DcFront

open Verif.Axes Verif.Sweep Verif.Circuit

/-- Class of an element, as far as `isinstance` in lines 536-545 tells. -/
inductive Kind where
  | vsource
  | isource
  | other
  deriving DecidableEq, Repr

/-- An element of the circuit. -/
structure Part where
  id : String
  kind : Kind

/-- The axis, lines 512-523: `sweep_type.upper()[:3]` is compared with `options.dc_log_step`
and `options.dc_lin_step` (options.py:103-105). -/
noncomputable def axis (stype : List Char) (start stop points : ℝ) : Except SErr (List ℝ) :=
  if stype = ['L', 'O', 'G'] then
    .ok (collect logNext (⌈points⌉₊ + 2) (logInit start stop points))
  else if stype = ['L', 'I', 'N'] then
    match linInit start stop points with
    | none => .error .valueError
    | some a => .ok (collect linNext (⌈points⌉₊ + 2) a)
  else .error .exit

/-- Whether an element is the source, lines 534-545: `ty` is `'v'` or `'i'`. -/
def isSource (ty : Char) (descr : List Char) (p : Part) : Bool :=
  lower p.id = descr && ((ty = 'v' && p.kind = .vsource) || (ty = 'i' && p.kind = .isource))

/-- The search loop, lines 533-547: position of the source. -/
def findSource (ty : Char) (descr : List Char) : List Part → Option Nat
  | [] => none
  | p :: rest =>
    if isSource ty descr p then some 0 else (findSource ty descr rest).map (· + 1)

/-- What is left after `dc_analysis`: the DC values of the elements, the element that was
swept, the values tried, and the points or `None` or the exception. -/
structure Full (S : Type) where
  dcs : Nat → ℝ
  swept : Option Nat
  tried : List ℝ
  out : Except SErr (Option (List (ℝ × S)))

/-- Nothing was touched. -/
def refuse {S : Type} (dcs : Nat → ℝ) (e : SErr) : Full S := ⟨dcs, none, [], .error e⟩

/-- Lines 549-595: the sweep of element `i`. -/
noncomputable def sweep {S : Type} (skip : Bool) (op : Nat → ℝ → Option S → Outcome S)
    (dcs : Nat → ℝ) (i : Nat) (vs : List ℝ) (x0 : Option S) : Full S :=
  let (s, raised) := loop skip op 0 vs ⟨dcs i, x0, none, [], []⟩
  if raised then ⟨Function.update dcs i s.dc, some i, s.tried, .error .fromOp⟩
  else match s.solved with
    | none => ⟨Function.update dcs i s.dc, some i, s.tried, .error .unbound⟩
    | some b => ⟨dcs, some i, s.tried, .ok (if b then some s.recd else none)⟩

/-- `dc_analysis`. `op i` is the operating point with element `i` swept. -/
noncomputable def dcFull {S : Type} (parts : List Part) (skip : Bool)
    (op : Nat → Nat → ℝ → Option S → Outcome S) (dcs : Nat → ℝ)
    (start stop step : ℝ) (source stype : String) (x0 : Option S) : Full S :=
  match source.toList with
  | [] => refuse dcs .index
  | c :: _ =>
    if stype.toList = ['L', 'O', 'G'] ∧ stop - start < 0 then refuse dcs .exit
    else if (stop - start) * step < 0 then refuse dcs .valueError
    else if step = 0 then refuse dcs .zeroDivision
    else match axis ((upper stype).take 3) start stop ((stop - start) / step + 1) with
      | .error e => refuse dcs e
      | .ok vs =>
        if c.toLower ≠ 'v' ∧ c.toLower ≠ 'i' then refuse dcs .exit
        else match findSource c.toLower (lower source) parts with
          | none => refuse dcs .valueError
          | some i => sweep skip (op i) dcs i vs x0

/-- The `step` that `new_dc` puts into the analysis for a number of points, ahkab.py:317
(`none`: `ZeroDivisionError`). -/
noncomputable def newStep (start stop : ℝ) (points : Nat) : Option ℝ :=
  if points = 1 then none else some ((stop - start) / ((points : ℝ) - 1))

end Verif.DcFront
