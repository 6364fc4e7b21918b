import Mathlib.Data.List.Sort
import Mathlib.Data.List.Lex
import Mathlib.Order.Lex
import Mathlib.Data.Char

/-!
Model of how the references of regression tests are read back from the files of results: `_load_references` of both test classes
(testing.py:530-551 and 784-806) and the recovery of poles and zeros (testing.py:603-610 and 849-856), with the columns written
by `ac_solution` (results.py:584-626) and `pz_solution` (results.py:1188-1195).

Simplifications: names are lists of characters, ordered like the strings of Python by their code points. Numbers are read as they
were written (see the model of csvlib). A dictionary is the list of its entries, the last one first. A column of a file with
singularities has one value.
-/

namespace Verif.Refs

abbrev Word := List Char

/-- the exceptions -/
inductive Bad where
  | assertion | value | index | key
deriving DecidableEq, Repr

/-- `'|%s|'` and `'arg(%s)'` (results.py:601-602) -/
def magName (v : Word) : Word := '|' :: (v ++ ['|'])
def argName (v : Word) : Word := 'a' :: 'r' :: 'g' :: '(' :: (v ++ [')'])

/-- the columns of an AC file (results.py:584-602 and 617-626): abscissa, then magnitude and phase of every variable. `mag` and
`arg` split a value; `arg` depends on the option `ac_phase_in_deg`. -/
def acFile {K C : Type} (mag arg : C → K) (xname : Word) (x : List K) : List (Word × List C) → List (Word × List K)
  | l => (xname, x) :: l.flatMap fun p => [(magName p.1, p.2.map mag), (argName p.1, p.2.map arg)]

/-- `headers.index(name)` and `data[pi, :]` -/
def column {K : Type} (file : List (Word × List K)) (name : Word) : Option (List K) := (file.find? fun p => p.1 == name).map Prod.snd

/-- the loop over the headers of an AC file (testing.py:541-546). `polar m a` is `m*exp(1j*a)`. A name without characters raises
an IndexError. -/
def acLoop {K C : Type} (polar : K → K → C) (file : List (Word × List K)) (res : List (Word × List C)) :
    List (Word × List K) → Except Bad (List (Word × List C))
  | [] => .ok res
  | (h, m) :: l =>
    match h.head?, h.getLast? with
    | some a, some b =>
      if a = b ∧ b = '|' then
        let v := h.tail.dropLast
        match column file (argName v) with
        | none => .error .value
        | some ph => acLoop polar file ((v, List.zipWith polar m ph) :: res) l
      else acLoop polar file res l
    | _, _ => .error .index

/-- `_load_references` for one AC file (testing.py:539-550): the name of the abscissa and the dictionary -/
def loadAc {K C : Type} (real : K → C) (polar : K → K → C) (file : List (Word × List K)) : Except Bad (Word × List (Word × List C)) :=
  match file with
  | [] => .error .index
  | (x, d) :: _ => match acLoop polar file [(x, d.map real)] file with
    | .error e => .error e
    | .ok res => .ok (x, res)

/-- `_load_references` for other files (testing.py:547-550) -/
def loadOther {K : Type} (file : List (Word × List K)) : Except Bad (Word × List (Word × List K)) :=
  match file with
  | [] => .error .index
  | (x, _) :: _ => .ok (x, file.reverse)

/-- `'Re(%s)'` and `'Im(%s)'` (results.py:1190-1191) -/
def reName (v : Word) : Word := 'R' :: 'e' :: '(' :: (v ++ [')'])
def imName (v : Word) : Word := 'I' :: 'm' :: '(' :: (v ++ [')'])

/-- the entries for the values with the names `c0`, `c1`, ... from number `i` on (results.py:1181-1191); `num` is `'%d'` -/
def pzPart {K : Type} (num : Nat → Word) (c : Char) : Nat → List (K × K) → List (Word × K)
  | _, [] => []
  | i, z :: l => (reName (c :: num i), z.1) :: (imName (c :: num i), z.2) :: pzPart num c (i + 1) l

/-- the columns of a file with poles and zeros (results.py:1188-1195) -/
def pzFile {K : Type} (num : Nat → Word) (poles zeros : List (K × K)) : List (Word × K) :=
  pzPart num 'p' 0 poles ++ pzPart num 'z' 0 zeros

/-- `ref[key]` -/
def value {K : Type} [Zero K] (d : List (Word × K)) (k : Word) : K := ((d.find? fun p => p.1 == k).map Prod.snd).getD 0

/-- poles and zeros of a reference (testing.py:604-610): the sorted names, the second half for the real parts -/
def recover {K : Type} [Zero K] (d : List (Word × K)) : Except Bad (List (K × K) × List (K × K)) :=
  let keys := (d.map Prod.fst).insertionSort (· ≤ ·)
  if keys.length % 2 ≠ 0 then .error .assertion else
  let h := keys.length / 2
  let sing := (List.range h).map fun k => (value d (keys.getD (h + k) []), value d (keys.getD k []))
  let n := ((d.map Prod.fst).filter fun k => k.take 4 == ['R', 'e', '(', 'p']).length
  .ok (sing.take n, sing.drop n)

end Verif.Refs
