import Verif.Model.Results

/-!
Model of the other ways of reading an AC result: `ac_solution.asarray`, `values` and `items` (results.py:632-704).
`real_if_close` of the frequencies, which are real, changes nothing.
-/

namespace Verif.AcRead
open Verif.Csv Verif.Results

/-- the group of `re.search('\|(.*?)\|', w)` (results.py:640-641, 651) -/
def bars (w : Word) : Option Word :=
  match w.dropWhile (· ≠ '|') with
  | [] => none
  | _ :: t => if '|' ∈ t then some (t.takeWhile (· ≠ '|')) else none

variable {K C : Type}

/-- `data[i, :]` -/
def column (data : List (List K)) (i : Nat) : List K := data.filterMap (·[i]?)

/-- one turn of the loop of `asarray` (results.py:643-662): a row of the array, nothing, or the `ValueError` of `index` -/
def arrayRow (polar : K → K → C) (real : K → C) (var0 : Word) (headers : List Word) (data : List (List K)) (i : Nat) (h : Word) :
    Except Csv.Err (Option (List C)) :=
  if upperW h = upperW var0 then .ok (some ((column data i).map real))
  else match bars h with
    | none => .ok none
    | some var => match indexOf? (upperW (argName var)) (headers.map upperW) with
      | none => .error .value
      | some ip => .ok (some (List.zipWith polar (column data i) (column data ip)))

def arrayRows (polar : K → K → C) (real : K → C) (var0 : Word) (headers : List Word) (data : List (List K)) :
    Nat → List Word → Except Csv.Err (List (List C))
  | _, [] => .ok []
  | i, h :: t => match arrayRow polar real var0 headers data i h with
    | .error e => .error e
    | .ok r => match arrayRows polar real var0 headers data (i + 1) t with
      | .error e => .error e
      | .ok l => .ok (r.toList ++ l)

/-- `asarray` and `values` (results.py:632-663, 695-701) -/
def acArray (polar : K → K → C) (real : K → C) (parse : Word → Option K) (file : List Word) (var0 : Word) :
    Except Csv.Err (List (List C)) :=
  match loadCsv parse file [] none 0 with
  | .error e => .error e
  | .ok l => arrayRows polar real var0 l.headers l.data 0 l.headers

/-- `items` (results.py:703-705) -/
def acItems (polar : K → K → C) (real : K → C) (parse : Word → Option K) (file : List Word) (vars : List Word) :
    Except Csv.Err (List (Word × List C)) :=
  match vars with
  | [] => .error .index
  | var0 :: _ => match acArray polar real parse file var0 with
    | .error e => .error e
    | .ok l => .ok (vars.zip l)

end Verif.AcRead
