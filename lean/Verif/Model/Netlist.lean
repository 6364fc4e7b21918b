import Verif.Model.Units

/-!
Model of the reading of a netlist: `join_lines` (netlist_parser.py:1815-1831), the loop of
`parse_circuit` (145-246) over one file, and the chain of included files (241-243, 318-327).

A file is a list of lines without line ends; the file position is the list of the lines still
to be read, so that going back to `last_pos` is keeping the list. Lines are stripped and put
in lower case when read. Printing of error messages and closing of files are left out.
`parse_circuit` stops with `NetlistParseError` (`none`) on misplaced subcircuit directives.
-/

namespace Verif.Netlist

abbrev Line := List Char

/-- `line.strip().lower()` -/
def norm (l : Line) : Line := (Units.strip l).map Char.toLower

/-- `join_lines`: the joined line and the lines left to be read. -/
def joinLines (line : Line) : List Line → Line × List Line
  | [] => (line, [])
  | next :: rest =>
    match norm next with
    | [] => (line, rest)
    | '+' :: more => joinLines (line ++ ' ' :: more) rest
    | _ => (line, next :: rest)

theorem joinLines_length (line : Line) (rest : List Line) :
    (joinLines line rest).2.length ≤ rest.length := by
  induction rest generalizing line with
  | nil => simp [joinLines]
  | cons next rest ih =>
    unfold joinLines
    split
    · simp
    · exact (ih _).trans (by simp)
    · simp

/-- The logical lines of a file after its title, with the number recorded for them
(`line_n`, lines 185-198), given the number of the previous line. -/
def logical (n : Nat) : List Line → List (Line × Nat)
  | [] => []
  | l :: rest =>
    if norm l = [] then logical (n + 1) rest
    else
      ((joinLines (norm l) rest).1, n + 1) :: logical (n + 1) (joinLines (norm l) rest).2
termination_by ls => ls.length
decreasing_by
  · simp
  · exact Nat.lt_succ_of_le (joinLines_length _ _)

/-- The lines as read from standard input: each line, that still has its line end, gets
another one (lines 165-169). -/
def stdinLines (ls : List Line) : List Line := ls.flatMap fun l => [l, []]

/-- `line.split()[0]` of a line that does not begin with a blank. -/
def word (l : Line) : Line := l.takeWhile fun c => !c.isWhitespace

/-- `line.split()` -/
def wordsAux : Line → Line → List Line
  | [], [] => []
  | [], acc => [acc.reverse]
  | c :: l, acc =>
    if c.isWhitespace then
      if acc = [] then wordsAux l [] else acc.reverse :: wordsAux l []
    else wordsAux l (c :: acc)
def words (l : Line) : List Line := wordsAux l []

/-- What `parse_circuit` collects. -/
structure Groups where
  files : List Line := []
  directives : List (Line × Nat) := []
  models : List (Line × Nat) := []
  postproc : List (Line × Nat) := []
  subckts : List (List (Line × Nat)) := []
  elements : List (Line × Nat) := []
  current : List (Line × Nat) := []
  within : Bool := false
deriving DecidableEq, Repr

/-- Outcome of one logical line. -/
inductive Step where
  | next (g : Groups)
  | stop              -- `.end`
  | fail              -- `NetlistParseError`
deriving DecidableEq, Repr

/-- `parse_include_directive`, 1794-1812 (the file is assumed to exist). -/
def includePath (l : Line) : Option Line :=
  match words l with
  | [_, path] => some path
  | _ :: path :: ('*' :: _) :: _ => some path
  | _ => none

/-- The body of the loop, lines 199-238. -/
def step (g : Groups) (ln : Line × Nat) : Step :=
  match ln.1 with
  | '*' :: _ => .next g
  | '.' :: _ =>
    let w := word ln.1
    if w = ".subckt".toList then
      if g.within then .fail
      else .next { g with current := g.current ++ [ln], within := true }
    else if w = ".ends".toList then
      if !g.within then .fail
      else .next { g with within := false, subckts := g.subckts ++ [g.current], current := [] }
    else if w = ".include".toList then
      match includePath ln.1 with
      | some path => .next { g with files := g.files ++ [path] }
      | none => .fail
    else if w = ".end".toList then .stop
    else if w = ".plot".toList ∨ w = ".four".toList ∨ w = ".fft".toList then
      .next { g with postproc := g.postproc ++ [ln] }
    else if w = ".model".toList then .next { g with models := g.models ++ [ln] }
    else .next { g with directives := g.directives ++ [ln] }
  | _ =>
    if g.within then .next { g with current := g.current ++ [ln] }
    else .next { g with elements := g.elements ++ [ln] }

/-- The loop over the logical lines of one file. -/
def runLines : Groups → List (Line × Nat) → Option Groups
  | g, [] => if g.within then none else some g
  | g, ln :: rest =>
    match step g ln with
    | .next g => runLines g rest
    | .stop => if g.within then none else some g
    | .fail => none

/-- The main file: title and groups. -/
def readFile (ls : List Line) : Option (Line × Groups) :=
  match ls with
  | [] => some ([], {})
  | t :: rest => (runLines {} (logical 1 rest)).map fun g => (norm t, g)

end Verif.Netlist
