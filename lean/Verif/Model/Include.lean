import Verif.Model.Netlist

/-!
Model of reading a netlist of several files: the outer loop of `parse_circuit` (netlist_parser.py:183-246),
`parse_include_directive` (1794-1812) with `check_file` (utilities.py:157-177), and `get_next_file_and_close_current` (319-327).

`fs` gives the lines of a file, `none` if there is none. Paths are taken as written in the `.include` line; that relative ones
refer to the directory of the main netlist, also in included files (`netlist_wd`), is part of `fs`. Files are not changed
while they are read, so that a file found by `check_file` can be opened later. File objects and their closing are left out.
The loop may go on forever; `fuel` is the number of included files it reads at most.
-/

namespace Verif.Include
open Verif.Netlist

/-- `NetlistParseError` and `IOError` -/
inductive RErr where
  | parse | io
deriving DecidableEq, Repr

/-- The inner loop (lines 184-239): the lines of one file. `check_file` raises as soon as the directive is read. -/
def runFile (fs : Line → Option (List Line)) : Groups → List (Line × Nat) → Except RErr Groups
  | g, [] => if g.within then .error .parse else .ok g
  | g, ln :: rest =>
    match step g ln with
    | .next g' => if (g'.files.drop g.files.length).all fun p => (fs p).isSome then runFile fs g' rest else .error .io
    | .stop => if g.within then .error .parse else .ok g
    | .fail => .error .parse

/-- `line_n` at the end of a file: lines taken by `join_lines` are not counted, and lines after `.end` are not read. -/
def lastN (n : Nat) : List Line → Nat
  | [] => n
  | l :: rest =>
    if norm l = [] then lastN (n + 1) rest
    else if word (joinLines (norm l) rest).1 = ".end".toList then n + 1
    else lastN (n + 1) (joinLines (norm l) rest).2
termination_by ls => ls.length
decreasing_by
  · simp
  · exact Nat.lt_succ_of_le (joinLines_length _ _)

/-- What the loop ends with; `more` if there are still files to be read. -/
inductive Res where
  | done (g : Groups)
  | raised (e : RErr)
  | more
deriving DecidableEq, Repr

/-- The outer loop from file number `i` of the list `file_list` on. -/
def readFiles (fs : Line → Option (List Line)) : Nat → Nat → Nat → Groups → Res
  | fuel, i, n, g =>
    match g.files[i]? with
    | none => .done g
    | some p => match fuel with
      | 0 => .more
      | fuel + 1 => match fs p with
        | none => .raised .io
        | some ls => match runFile fs g (logical n ls) with
          | .error e => .raised e
          | .ok g' => readFiles fs fuel (i + 1) (lastN n ls) g'

/-- The main file, whose first line is the title, and all files it includes. -/
def readNetlist (fs : Line → Option (List Line)) (fuel : Nat) : List Line → Res
  | [] => .done {}
  | _ :: rest => match runFile fs {} (logical 1 rest) with
    | .error e => .raised e
    | .ok g => readFiles fs fuel 0 (lastN 1 rest) g

end Verif.Include
