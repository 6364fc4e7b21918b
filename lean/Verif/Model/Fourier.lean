import Verif.Model.Directive
import Mathlib.Algebra.Order.Floor.Semiring
import Mathlib.Analysis.SpecialFunctions.Log.Base
import Mathlib.Analysis.SpecialFunctions.Complex.Circle

/-!
Model of the Fourier post-processing: `specs`, `fourier` and `spicefft` (fourier.py:42-141,
144-211, 216-429), the `.fft` branch of `parse_postproc` (netlist_parser.py:1369-1404) and the
numbers printed by `print_fourier` (printing.py:359-376).

Simplifications: exact arithmetic. The interpolation of the data is a function of time. Non-integral
slice bounds, steps and sample counts (`len(f)/2`, `(stop-start)//sampling`) are truncated, which is
what numpy did when the code was written; newer numpy versions raise TypeError. Windows are not
modelled except for their selection.
-/

namespace Verif.Fourier
open Verif.Small Verif.Directive

/-! ### The directive -/

/-- `specs['fft']['tokens']` -/
def specFft : List Tok :=
  [⟨none, some 0, .str, true, "label", none⟩,
   ⟨some "start", none, .float, false, "stop", none⟩,
   ⟨some "stop", none, .float, false, "start", none⟩,
   ⟨some "from", none, .float, false, "from", none⟩,
   ⟨some "to", none, .float, false, "to", none⟩,
   ⟨some "np", none, .float, false, "np", num 0⟩,
   ⟨some "format", none, .str, false, "uformat", txt "NORM"⟩,
   ⟨some "window", none, .str, false, "window", txt "RECT"⟩,
   ⟨some "alpha", none, .float, false, "alpha", num 3⟩,
   ⟨some "freq", none, .float, false, "freq", none⟩,
   ⟨some "fmin", none, .float, false, "fmin", none⟩,
   ⟨some "fmax", none, .float, false, "fmax", none⟩]

/-- Outcome of the branch for `.fft`. -/
inductive FftOut where
  | ok (fpv : Dict)
  | keyError
  | parseError

/-- Lines 1370-1400, for the tokens after `.fft`. A token that fits no parameter raises
KeyError, because the message uses `fpv[type]` (line 1392). An empty number would be a
NetlistParseError; it is counted as KeyError here. -/
def parseFft (tokens : List (List Char)) : FftOut :=
  match loop specFft 0 tokens (fun k => if k = "type" then some (txt "fft") else none) with
  | none => .keyError
  | some (ps, an) => match finish ps an with
    | none => .parseError
    | some fpv => .ok fpv

/-! ### The arguments of `spicefft` -/

/-- Lines 320-336: a value, its synonym and the value of the results (`none`: KeyError). -/
def resolve (a b : Option (Option Val)) (d : Val) : Option Val :=
  if a = none ∧ b = none then some d
  else match a with
    | some (some v) => some v
    | _ => match b with
      | none => none
      | some (some v) => some v
      | some none => some d

/-- The time interval, for results from `tstart` to `tstop`. -/
def interval (args : Dict) (tstart tstop : Val) : Option (Val × Val) :=
  match resolve (args "start") (args "from") tstart, resolve (args "stop") (args "to") tstop with
  | some a, some b => some (a, b)
  | _, _ => none

/-- Line 342, for a given number. -/
noncomputable def np2 (np : ℝ) : ℕ :=
  if np < 2 then 2 else 2 ^ ⌊Real.logb 2 (np - 1) + 1⌋₊

/-- Lines 338-342 (`none`: TypeError for a text or `None`). -/
noncomputable def points (args : Dict) : Option ℕ :=
  match args "np" with
  | none => some 1024
  | some (some (.num x)) => some (np2 x)
  | _ => none

/-! ### Samples and frequencies -/

section axes
variable {K : Type} [Field K] [LinearOrder K] [IsStrictOrderedRing K] [FloorRing K]

/-- `numpy.fft.fftfreq(n, d)` -/
def fftfreq (n : Nat) (d : K) : List K :=
  (List.range n).map (fun (k : Nat) => (if k < (n + 1) / 2 then (k : K) else (k : K) - (n : K)) / (n * d))

/-- `l[::p]` -/
def every {α : Type} (p : Nat) (l : List α) : List α :=
  (List.range ((l.length + p - 1) / p)).filterMap (fun i => l[i * p]?)

/-- `numpy.linspace(start, stop, num, endpoint=False)` -/
def linspace (start stop : K) (num : Nat) : List K :=
  (List.range num).map (fun (i : Nat) => start + i * ((stop - start) / num))

/-- `fourier`, lines 192-196: number of periods (`none`: IndexError). -/
def nperiods (tstart tstop fund : K) : Option Nat :=
  (([1, 3, 5, 7, 9].map (fun (i : Nat) => ⌊(tstop - tstart) / (i / fund)⌋₊)).filter (0 < ·)).getLast?

/-- `sampling`, line 201. -/
def fSampling (fund : K) : K := 1 / (2 * 10 * fund)

/-- Number of samples, line 202. -/
def fNum (p : Nat) (fund : K) : Nat := ⌊(p / fund) / fSampling fund⌋₊

/-- `fourier`, lines 204 and 206: the frequencies. -/
def fFreqs (p : Nat) (fund : K) : List K :=
  let f := every p (fftfreq (fNum p fund) (fSampling fund))
  f.take (f.length / 2)

/-- `spicefft` with `freq`, line 372: number of periods. -/
def sPeriods (start stop freq : K) : Nat := ⌊(stop - start) * freq⌋₊

/-- Line 376. -/
def sSampling (n : Nat) (freq : K) : K := 1 / (2 * freq * n)

/-- Line 377: number of samples. -/
def sNum (n : Nat) (freq : K) : Nat := ⌊(n / freq) / sSampling n freq⌋₊ + 1

/-- Lines 395-396 and 400: the frequencies with `freq`. -/
def sFreqs (n : Nat) (freq : K) : List K :=
  let f := fftfreq (sNum n freq) (sSampling n freq)
  every n (f.take (f.length / 2))

/-- The frequencies without `freq`, lines 380-381 and 395-396. -/
def plainFreqs (start stop : K) (np2 : Nat) : List K :=
  let f := fftfreq np2 ((stop - start) / np2)
  f.take (f.length / 2)

/-- Lines 402-414: `fmin` and `fmax` applied to frequencies and values (`none`: ValueError).
`argwhere` on a boolean array is `List.filter` on pairs. -/
def keepMin {α : Type} (fmin : Option K) (l : List (K × α)) : Option (List (K × α)) :=
  match fmin with
  | none => some l
  | some m =>
    if 0 < m then
      if l.all (fun x => x.1 < m) then none
      else some (l.take 1 ++ l.filter (fun x => m ≤ x.1))
    else some l

def keepMax {α : Type} (fmax : Option K) (l : List (K × α)) : Option (List (K × α)) :=
  match fmax with
  | none => some l
  | some m =>
    if (l.drop 1).all (fun x => m < x.1) then none
    else some (l.filter (fun x => x.1 ≤ m))

def keep {α : Type} (fmin fmax : Option K) (l : List (K × α)) : Option (List (K × α)) :=
  (keepMin fmin l).bind (keepMax fmax)

end axes

/-! ### The transform -/

/-- The discrete Fourier transform of `N` samples, bin `k`. -/
noncomputable def dft (N : Nat) (x : Nat → ℂ) (k : Nat) : ℂ :=
  ∑ m ∈ Finset.range N, x m * Complex.exp (-(2 * Real.pi * Complex.I * k * m / N))

/-- `numpy.fft.rfft(x)[:-1]` -/
noncomputable def rfftInit (N : Nat) (x : Nat → ℂ) : List ℂ :=
  ((List.range (N / 2 + 1)).map (dft N x)).dropLast

/-- The data `v`, interpolated over time, at the times `t`. -/
noncomputable def samples (v : ℝ → ℝ) (t : List ℝ) (m : Nat) : ℂ := ((t.map v).getD m 0 : ℝ)

/-- `fourier`, lines 197-205. -/
noncomputable def fValues (p : Nat) (fund tstop : ℝ) (v : ℝ → ℝ) : List ℂ :=
  let start := tstop - p / fund
  let t := linspace start tstop (fNum p fund)
  every p (rfftInit t.length (samples v t))

/-- `spicefft` with `freq` and the rectangular window, lines 375-378, 397 and 401. -/
noncomputable def sValues (n : Nat) (freq stop : ℝ) (v : ℝ → ℝ) : List ℂ :=
  let start := stop - n / freq
  let t := linspace start stop (sNum n freq)
  every n (rfftInit t.length (samples v t))

/-- `spicefft` without `freq`, with the rectangular window, lines 380-381 and 397. -/
noncomputable def plainValues (start stop : ℝ) (np2 : Nat) (v : ℝ → ℝ) : List ℂ :=
  let t := linspace start stop np2
  rfftInit t.length (samples v t)

/-- `THD`, lines 207 and 416 (`none`: IndexError). -/
noncomputable def thd (F : List ℂ) : Option ℝ :=
  match F with
  | _ :: f1 :: rest => some (Real.sqrt ((rest.map (fun z => ‖z‖ ^ 2)).sum) / ‖f1‖)
  | _ => none

/-- What `print_fourier` prints as the DC component. -/
def dcPrinted (F : List ℂ) : Option ℂ := F.head?

end Verif.Fourier
