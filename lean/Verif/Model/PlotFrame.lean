import Mathlib.Algebra.Order.Field.Basic

/-!
Model of the frame of a plot: `_data_abs_arg_pass` (plotting.py:159-171), the curves and the limits of the axes of `plot_results`
(plotting.py:196-240), and the labels of the axes made by `_setup_plot` (plotting.py:78-133).

Results are a partial function from names to columns, with `V` the type of the values in them; a name that is not there raises
KeyError (results.py:178-186, 666-685), which `plot_results` does not catch (C133). `abs`, `arg` and `plain` give what is drawn
for a value. The drawing itself, colours, grids and files are left out.
-/

namespace Verif.PlotFrame

abbrev Txt := List Char

inductive PErr where
  | index
  | key
  | type
  | value
deriving DecidableEq, Repr

/-- a set of results -/
structure Res (V : Type) where
  get : Txt → Option (List V)
  units : Txt → Txt

/-- what is drawn for a value -/
structure Draw (V K : Type) where
  abs : V → K
  arg : V → K
  plain : V → K

/-- `res[name]`, mapped, and `res.units[name]` -/
def column {V K : Type} (res : Res V) (f : V → K) (name : Txt) : Except PErr (List K × Txt) :=
  match res.get name with
  | none => .error .key
  | some l => .ok (l.map f, res.units name)

/-- `_data_abs_arg_pass` -/
def dataPass {V K : Type} (d : Draw V K) (res : Res V) (label : Txt) : Except PErr (List K × Txt) :=
  if label = [] then .error .index
  else if label.head? = some '|' ∧ label.getLast? = some '|' then column res d.abs (label.drop 1).dropLast
  else if label.take 4 = "arg(".toList ∧ label.getLast? = some ')' then column res d.arg (label.drop 4).dropLast
  else column res d.plain label

/-- a curve: its values, its label and its unit -/
structure Curve (K : Type) where
  y : List K
  label : Txt
  unit : Txt

variable {K : Type} [Field K] [LinearOrder K]

/-- one pass of the loop of `plot_results`, plotting.py:202-220 -/
def curveOf {V : Type} (d : Draw V K) (res : Res V) (p : Txt × Option Txt) : Except PErr (Curve K) :=
  match p.2 with
  | some (c :: r) => do
    let a ← dataPass d res (c :: r)
    let b ← dataPass d res p.1
    .ok ⟨List.zipWith (· - ·) b.1 a.1, p.1 ++ '-' :: c :: r, b.2⟩
  | _ => do
    let b ← dataPass d res p.1
    .ok ⟨b.1, p.1, b.2⟩

/-- units and initials, plotting.py:113-119 -/
def unitStep (s : List (Char × Txt)) (c : Txt × Txt) : Except PErr (List (Char × Txt)) :=
  if c.2 ∈ s.map Prod.snd then .ok s
  else match c.1.filter (· ≠ '|') with
    | [] => .error .index
    | x :: _ => .ok (s ++ [(x, c.2)])

/-- `"%s [%s] , "` -/
def piece (p : Char × Txt) : Txt := p.1 :: ' ' :: '[' :: p.2 ++ "] , ".toList

/-- the label of the vertical axis, plotting.py:113-123 -/
def yLabel (cs : List (Txt × Txt)) : Except PErr Txt := do
  let s ← cs.foldlM unitStep []
  let l := (s.map piece).flatten
  .ok (l.take (l.length - 3))

/-- `y.max()`: ValueError for no values -/
def maxL : List K → Except PErr K
  | [] => .error .value
  | a :: r => .ok (r.foldl max a)

def minL : List K → Except PErr K
  | [] => .error .value
  | a :: r => .ok (r.foldl min a)

/-- the largest and smallest values so far, plotting.py:237-238 -/
def rangeStep (s : Option (K × K)) (c : Curve K) : Except PErr (Option (K × K)) := do
  let hi ← maxL c.y
  let lo ← minL c.y
  match s with
  | none => .ok (some (hi, lo))
  | some (ymax, ymin) => .ok (some (if hi > ymax then hi else ymax, if lo < ymin then lo else ymin))

/-- `pylab.ylim`, plotting.py:240; without curves `None` is subtracted from `None` -/
def yLimits (cs : List (Curve K)) : Except PErr (K × K) := do
  match ← cs.foldlM rangeStep none with
  | none => .error .type
  | some (ymax, ymin) => .ok (ymin - (ymax - ymin) * (1 / 100), ymax + (ymax - ymin) * (1 / 100))

/-- what a plot shows -/
structure Frame (K : Type) where
  curves : List (Curve K)
  ylabel : Txt
  xlog : Bool
  xlim : K × K
  ylim : K × K

/-- `plot_results` for results with the given horizontal axis -/
def plot {V : Type} (d : Draw V K) (res : Res V) (xlabel : Txt) (x : List K) (ps : List (Txt × Option Txt)) : Except PErr (Frame K) := do
  let cs ← ps.mapM (curveOf d res)
  let yl ← yLabel (cs.map fun c => (c.label, c.unit))
  let hi ← maxL x
  let lo ← minL x
  let yr ← yLimits cs
  .ok ⟨cs, yl, decide (xlabel = ['f']), (lo, hi), yr⟩

end Verif.PlotFrame
