import Mathlib.Analysis.Complex.Norm

/-!
Model of `_split_netlist_label` (plotting.py:49-75), of the `.plot` branch of `parse_postproc`
(netlist_parser.py:1320-1353) and of the data that `plot_results` draws (plotting.py:155-165,
202-220).

Simplifications: labels are ASCII. The three regular expressions are scanners: white space, word
characters and punctuation are disjoint, so that matching needs no backtracking. The results are a
function from names to the value at one point; unknown names are not modelled.
-/

namespace Verif.Plot

/-- `\s` -/
def isWs (c : Char) : Bool := c = ' ' ∨ c = '\t' ∨ c = '\n' ∨ c = '\r'

/-- `\w` -/
def isWord (c : Char) : Bool := c.isAlphanum || c = '_'

def skipWs (s : List Char) : List Char := s.dropWhile isWs

/-- One given character. -/
def lit (c : Char) : List Char → Option (List Char)
  | [] => none
  | d :: s => if d = c then some s else none

/-- `X\s*\(\s*(\w*)\s*`: what was captured and the rest. -/
def opening (x : Char) (s : List Char) : Option (List Char × List Char) :=
  match lit x s with
  | none => none
  | some s1 => match lit '(' (skipWs s1) with
    | none => none
    | some s2 =>
      let s3 := skipWs s2
      some (s3.takeWhile isWord, skipWs (s3.dropWhile isWord))

/-- `V\s*\(\s*(\w*)\s*,\s*(\w*)\s*\)` -/
def matchPair (s : List Char) : Option ((List Char × List Char) × List Char) :=
  match opening 'V' s with
  | none => none
  | some (a, s1) => match lit ',' s1 with
    | none => none
    | some s2 =>
      let s3 := skipWs s2
      match lit ')' (skipWs (s3.dropWhile isWord)) with
      | none => none
      | some r => some ((a, s3.takeWhile isWord), r)

/-- `X\s*\(\s*(\w*)\s*\)` -/
def matchOne (x : Char) (s : List Char) : Option (List Char × List Char) :=
  match opening x s with
  | none => none
  | some (a, s1) => match lit ')' s1 with
    | none => none
    | some r => some (a, r)

/-- `findall`; the first argument bounds the number of steps, the length of the text is enough. -/
def findall {α : Type} (m : List Char → Option (α × List Char)) : Nat → List Char → List α
  | 0, _ => []
  | _ + 1, [] => []
  | n + 1, c :: s => match m (c :: s) with
    | some (a, r) => a :: findall m n r
    | none => findall m n s

/-- The tuples that are returned. -/
inductive Lab where
  | one (a : List Char)
  | two (a : List Char) (b : Option (List Char))
deriving DecidableEq, Repr

/-- Lines 53-60. -/
def pairLab (x : List Char × List Char) : Lab :=
  if 'V' :: x.2 ≠ ['V', '0'] then .two ('V' :: x.1) (some ('V' :: x.2)) else .one ('V' :: x.1)

/-- `_split_netlist_label` (`none`: ValueError). -/
def splitLabel (text : List Char) : Option (List Lab) :=
  let s := text.map Char.toUpper
  let r := (findall matchPair s.length s).map pairLab ++
    (findall (matchOne 'V') s.length s).map (fun a => .two ('V' :: a) none) ++
    (findall (matchOne 'I') s.length s).map (fun a => .two ('I' :: '(' :: a ++ [')']) none)
  if r = [] then none else some r

/-- A curve of a plot at one point, for AC results (magnitudes, netlist_parser.py:1337-1349) and for
others. `none`: ValueError, a tuple of length one cannot be unpacked. -/
noncomputable def curve (ac : Bool) (res : List Char → ℂ) : Lab → Option ℂ
  | .one _ => none
  | .two a none => some (if ac then (‖res a‖ : ℂ) else res a)
  | .two a (some b) =>
    some (if ac then (‖res a‖ : ℂ) - (‖res b‖ : ℂ) else res a - res b)

end Verif.Plot
