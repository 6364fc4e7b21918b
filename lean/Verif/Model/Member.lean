import Verif.Model.Results

/-!
# Result sets as dictionaries: `has_key`, `in`, `len`, `values` and `items` of `ahkab/results.py`

Names, files and lookups are those of `Results`.
-/

namespace Verif.Member
open Verif.Csv Verif.Results

variable {K : Type}

/-- `solution.values`, results.py:210-217: one array for each row of the data, i.e. for each name found -/
def values (parse : Word → Option K) (file : List Word) (vars : List Word) : Except Csv.Err (List (List K)) :=
  match loadCsv parse file vars none 0 with
  | .error e => .error e
  | .ok l => .ok ((List.range l.headers.length).map fun i => l.data.filterMap (·[i]?))

/-- `solution.items`, results.py:219-220 -/
def items (parse : Word → Option K) (file : List Word) (vars : List Word) : Except Csv.Err (List (Word × List K)) :=
  match values parse file vars with
  | .error e => .error e
  | .ok l => .ok (vars.zip l)

/-- `solution.get`, results.py:188-196; the same for `ac_solution`, 687-693 -/
def getOr {V : Type} (r : Except Csv.Err (Option V)) (default : V) : Except Csv.Err V :=
  match r with
  | .error e => .error e
  | .ok (some v) => .ok v
  | .ok none => .ok default

/-- `op_solution.items`, results.py:529-533 -/
def opItems (vars : List Word) (x : List K) : List (Word × K) := vars.zip x

/-- `pz_solution.__contains__` and `has_key`, results.py:1226-1232; without zeros there is no attribute `data` -/
def pzHas {C : Type} (s : PzSol C) (name : Word) : Except Circuit.Err Bool :=
  match s.data with
  | none => .error .attr
  | some d => .ok (ciHas d name)

/-- `pz_solution.keys`, results.py:1234-1236 -/
def pzKeys {C : Type} (s : PzSol C) : Except Circuit.Err (List Word) :=
  match s.data with
  | none => .error .attr
  | some d => .ok (d.map Prod.fst)

/-- `solution.__len__`, results.py:174-176, which `pz_solution` does not redefine -/
def pzLen {C : Type} (s : PzSol C) : Nat := s.vars.length

end Verif.Member
