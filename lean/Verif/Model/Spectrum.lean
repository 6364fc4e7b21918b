import Verif.Model.Circuit
import Mathlib.Analysis.SpecialFunctions.Complex.Arg
import Mathlib.Analysis.SpecialFunctions.Log.Base

/-!
The tables of spectra: `print_fourier` (printing.py:328-378) and `print_spicefft` (printing.py:380-467), the names of windows
(options.py:198-209).

A table is modelled by the numbers that are formatted into it. `%g` and `tabulate` are not modelled. numpy's `log10(0)` is minus infinity,
`0/0` and the difference of two infinities are nan. Lists of frequencies and amplitudes are numpy arrays of finite numbers.
-/

namespace Verif.Spectrum
open Verif.Circuit (Err)

/-- `numpy.argmax`: the first index of a largest entry (`none`: ValueError, there are no entries). -/
def argmax {α : Type} [LinearOrder α] : List α → Option Nat
  | [] => none
  | x :: l =>
    match argmax l with
    | none => some 0
    | some j => if ∀ y ∈ l[j]?, y ≤ x then some 0 else some (j + 1)

/-- `label`: a string or a tuple; `none` is None. -/
inductive Label where
  | str (s : String)
  | tup (l : List (Option String))
deriving DecidableEq, Repr

/-- `%s` -/
def show1 : Option String → String
  | some s => s
  | none => "None"

/-- The label of a table, lines 347-353 and 407-413. -/
def title : Label → Except Err String
  | .str s => .ok s
  | .tup [] => .error .index
  | .tup [a] => .ok (show1 a)
  | .tup (a :: none :: _) => .ok (show1 a)
  | .tup (a :: some b :: _) => .ok (show1 a ++ " - " ++ b)

/-- `numpy.angle(z, deg=True)` -/
noncomputable def deg (z : ℂ) : ℝ := Complex.arg z * (180 / Real.pi)

/-- Division of floats, not by zero unless the dividend is zero too (`none`: nan). -/
noncomputable def quot (x y : ℝ) : Option ℝ := if y = 0 then none else some (x / y)

/-- A row of the table of `print_fourier`. -/
structure Row where
  n : Nat
  freq : ℝ
  mag : ℝ
  norm : Option ℝ
  phase : ℝ
  normPhase : ℝ

/-- What `print_fourier` prints. -/
structure Table where
  title : String
  dc : ℝ
  refFreq : ℝ
  refMag : ℝ
  refPhase : ℝ
  rows : List Row
  thd : ℝ

/-- `numpy.real_if_close` followed by `%g`, which takes no complex numbers. `tol` is 100 times the spacing of floats. -/
noncomputable def realIfClose (tol : ℝ) (z : ℂ) : Except Err ℝ := if |z.im| < tol then .ok z.re else .error .type

/-- The loop of `print_fourier`, lines 371-375. -/
noncomputable def rows (mag ang : ℝ) : Nat → List ℝ → List ℂ → Except Err (List Row)
  | _, _, [] => .ok []
  | _, [], _ :: _ => .error .index
  | n, f :: fs, z :: zs => do
    let r ← rows mag ang (n + 1) fs zs
    .ok (⟨n, f, ‖z‖, quot ‖z‖ mag, deg z, deg z - ang⟩ :: r)

/-- `print_fourier` -/
noncomputable def printFourier (tol : ℝ) (label : Label) (f : List ℝ) (F : List ℂ) (thd : ℝ) : Except Err Table := do
  let t ← title label
  match F with
  | [] => .error .index
  | z0 :: zs =>
    let dc ← realIfClose tol z0
    match argmax ((z0 :: zs).map fun z => ‖z‖) with
    | none => .error .value
    | some i =>
      match f[i]?, (z0 :: zs)[i]? with
      | some fi, some zi => do
        let r ← rows ‖zi‖ (deg zi) 1 f.tail zs
        .ok ⟨t, dc, fi, ‖zi‖, deg zi, r, 100 * thd⟩
      | _, _ => .error .index

/-! ### `print_spicefft` -/

/-- A magnitude in decibels. -/
inductive DB where
  | nan
  | ninf
  | fin (x : ℝ)

/-- `20*log10(x)` for `x ≥ 0` -/
noncomputable def dB (x : ℝ) : DB := if x = 0 then .ninf else .fin (20 * Real.logb 10 x)

/-- Difference of floats. -/
noncomputable def DB.sub : DB → DB → DB
  | .fin x, .fin y => .fin (x - y)
  | .ninf, .fin _ => .ninf
  | _, _ => .nan

/-- The windows and their printed names, options.py:206-209. -/
def windowNames : List (String × String) :=
  [("RECT", "RECTANGULAR"), ("BART", "BARTLETT"), ("HANN", "HANNING"), ("HAMM", "HAMMING"), ("BLACK", "BLACKMAN-HARRIS"),
    ("HARRIS", "HARRIS"), ("GAUSS", "GAUSSIAN"), ("KAISER", "KAISER")]

/-- The windows that `spicefft` multiplies the data with, fourier.py:398-405, by their names in scipy. -/
def windowUsed : List (String × String) :=
  [("RECT", "rectangular"), ("BART", "bartlett"), ("HANN", "hann"), ("HAMM", "hamming"), ("BLACK", "blackman"),
    ("HARRIS", "blackmanharris"), ("GAUSS", "gaussian"), ("KAISER", "kaiser")]

/-- Lines 430-447 and 456: the name of the window. -/
def windowName (w : Option String) : Except Err String :=
  match windowNames.lookup ((w.getD "RECT").toUpper) with
  | some n => .ok n
  | none => .error .value

/-- A row of the table of `print_spicefft`. -/
structure FRow where
  n : Nat
  freq : ℝ
  mag : DB
  phase : ℝ

/-- What `print_spicefft` prints. `carrier`: frequency and magnitude of the line on the normalisation. -/
structure FTable where
  title : String
  window : String
  start : ℝ
  stop : ℝ
  unit : String
  carrier : Option (ℝ × DB)
  dc : DB
  rows : List FRow
  thd : Option ℝ

/-- The loop of `print_spicefft`, lines 463-465; `g` makes the printed magnitude. -/
noncomputable def frows (g : ℂ → DB) : Nat → List ℝ → List ℂ → Except Err (List FRow)
  | _, _, [] => .ok []
  | _, [], _ :: _ => .error .index
  | n, f :: fs, z :: zs => do
    let r ← frows g (n + 1) fs zs
    .ok (⟨n, f, g z, deg z⟩ :: r)

/-- Lines 448-467. -/
noncomputable def spectrum (t w unit : String) (carrier : Option (ℝ × DB)) (g : ℂ → DB) (f : List ℝ) (F : List ℂ) (thd : Option ℝ) :
    Except Err FTable :=
  match f, F with
  | f0 :: f1 :: fs, z0 :: zs => do
    let r ← frows g 1 (f1 :: fs) zs
    .ok ⟨t, w, f1, (f1 :: fs).getLastD f0, unit, carrier, g z0, r, thd.map (100 * ·)⟩
  | _, _ => .error .index

/-- `print_spicefft`. The logarithm grows with the magnitude, so that the largest level is that of the largest magnitude. -/
noncomputable def printFft (label : Label) (f : List ℝ) (F : List ℂ) (thd : Option ℝ) (uformat : String) (window : Option String) :
    Except Err FTable := do
  let t ← title label
  if uformat.toUpper = "NORM" then
    match argmax (F.map fun z => ‖z‖) with
    | none => .error .value
    | some i =>
      match f[i]?, F[i]? with
      | some fi, some zi => do
        let w ← windowName window
        spectrum t w "dBc" (some (fi, dB ‖zi‖)) (fun z => (dB ‖z‖).sub (dB ‖zi‖)) f F thd
      | _, _ => .error .index
  else if uformat.toUpper = "UNORM" then do
    let w ← windowName window
    spectrum t w "dB" none (fun z => dB ‖z‖) f F thd
  else .error .value

end Verif.Spectrum
