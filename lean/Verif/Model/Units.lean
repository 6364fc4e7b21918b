import Mathlib.Algebra.Field.Rat
import Mathlib.Data.List.Basic

/-!
Model of `convert_units` (netlist_parser.py:1241-1308) and of Python's `float()` on the
strings it is given there.

Strings are lists of characters, restricted to ASCII for `upper()` and `isdigit()`; numbers
are exact rationals (the rounding of `float()` is not modelled, nor its range).
-/

namespace Verif.Units

/-- Exceptions of `convert_units`. -/
inductive UErr where
  | value   -- `ValueError`
  | parse   -- `NetlistParseError`
  deriving DecidableEq, Repr

/-- Value of a character as a decimal digit. -/
def digit (c : Char) : Nat := c.toNat - 48

/-- Value of a string of digits. -/
def digitsVal (l : List Char) : Nat := l.foldl (fun a c => 10 * a + digit c) 0

/-- An optional sign: whether it is negative, and the rest. -/
def sign : List Char → Bool × List Char
  | '+' :: r => (false, r)
  | '-' :: r => (true, r)
  | r => (false, r)

/-- Negation if asked for. -/
def signed (neg : Bool) (x : ℚ) : ℚ := if neg then -x else x

/-- The exponent part (`none`: malformed). -/
def exponent : List Char → Option ℤ
  | [] => some 0
  | 'E' :: r =>
    let (neg, ds) := sign r
    if ds ≠ [] ∧ ds.all Char.isDigit then
      some (if neg then -(digitsVal ds : ℤ) else digitsVal ds)
    else none
  | _ => none

/-- An optional fraction: its digits, and the rest. -/
def fraction : List Char → List Char × List Char
  | '.' :: r => (r.takeWhile Char.isDigit, r.dropWhile Char.isDigit)
  | r => ([], r)

/-- Python's `float(s)` for an upper-case string without blanks and without the names of
infinities and NaN (`none`: `ValueError`). -/
def pyFloat (s : List Char) : Option ℚ :=
  let (neg, s1) := sign s
  let ip := s1.takeWhile Char.isDigit
  let s2 := s1.dropWhile Char.isDigit
  let (fp, s3) := fraction s2
  if ip = [] ∧ fp = [] then none
  else (exponent s3).map fun (e : ℤ) =>
    signed neg ((digitsVal (ip ++ fp) : ℚ) * (10 : ℚ) ^ (e - (fp.length : ℤ)))

/-- `str.strip()`. -/
def strip (s : List Char) : List Char :=
  ((s.dropWhile Char.isWhitespace).reverse.dropWhile Char.isWhitespace).reverse

/-- Characters accepted by the scanning loop, lines 1274-1277. -/
def numChar (c : Char) : Bool :=
  c.isDigit || c == '.' || c == '+' || c == '-' || c == 'E'

/-- The chain of multipliers, lines 1285-1307 (`none`: unknown). -/
def multiplier (m : List Char) : Option ℚ :=
  if m = [] then some 1
  else if m = ['T'] then some (10 ^ 12)
  else if m = ['G'] then some (10 ^ 9)
  else if m = ['K'] then some (10 ^ 3)
  else if m = ['M'] then some (1 / 10 ^ 3)
  else if m = ['U'] then some (1 / 10 ^ 6)
  else if m = ['N'] then some (1 / 10 ^ 9)
  else if m = ['P'] then some (1 / 10 ^ 12)
  else if m = ['F'] then some (1 / 10 ^ 15)
  else if m = ['M', 'E', 'G'] then some (10 ^ 6)
  else if m = ['M', 'I', 'L'] then some (254 / 10 ^ 7)
  else none

/-- `convert_units`, lines 1263-1308. -/
def convertUnits (s : List Char) : Except UErr ℚ :=
  if s = [] then .error .parse
  else
    let s := (strip s).map Char.toUpper
    let num := s.takeWhile numChar
    let mult := s.dropWhile numChar
    if num = [] then .error .value
    else match pyFloat num with
      | none => .error .value
      | some x => match multiplier mult with
        | none => .error .value
        | some f => .ok (x * f)

end Verif.Units
