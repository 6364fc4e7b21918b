/-!
# Results files: `ahkab/csvlib.py`

A file is a list of lines without their line ends, a line a list of characters.  Matrices are kept as the list of their
samples (`data.T` of the code, l. 96; `unpack=True`, l. 257).

Simplifications: numbers are written by `fmt` (`'%.18e'`, the default of `numpy.savetxt`) and read by `parse` (`float`), both
parameters; names contain no line end; `Char.isWhitespace` for the blanks of `str.strip`; no read error from the operating
system; `nsamples` and `skip` are not negative.
-/

namespace Verif.Csv

abbrev Word := List Char

/-- `SEPARATOR`, l. 58 -/
def sep : Char := '\t'

/-- Exceptions: `IndexError` (l. 219) and `ValueError` (l. 253 or from `numpy.loadtxt`). -/
inductive Err where
  | index
  | value
deriving DecidableEq, Repr

/-- `sep.join(ws)` -/
def join : List Word → Word
  | [] => []
  | [w] => w
  | w :: v :: ws => w ++ sep :: join (v :: ws)

/-- `line.split(sep)` -/
def split : Word → List Word
  | [] => [[]]
  | c :: cs =>
    if c = sep then [] :: split cs
    else match split cs with
      | [] => [[c]]
      | w :: ws => (c :: w) :: ws

/-- `line.strip()` -/
def strip (l : Word) : Word :=
  ((l.dropWhile Char.isWhitespace).reverse.dropWhile Char.isWhitespace).reverse

/-- `name.lower()` -/
def lowerW (w : Word) : Word := w.map Char.toLower

section
variable {K : Type}

/-- csvlib.py l. 61-99, `write_csv` on a file holding the lines `old`.  `numpy.savetxt` writes the header line only if the
header is not the empty string, with `'#'` in front. -/
def writeCsv (fmt : K → Word) (old : List Word) (rows : List (List K)) (headers : List Word) (append : Bool) :
    List Word :=
  let h := if append then [] else join headers
  (if append then old else [])
    ++ (if h = [] then [] else ['#' :: h])
    ++ rows.map (fun r => join (r.map fmt))

/-- csvlib.py l. 193-223, `get_headers`: the loop goes on while the line, stripped and without `'#'`, is empty, but
`line[0]` fails on a blank line and at the end of the file. -/
def getHeaders : List Word → Except Err (List Word)
  | [] => .error .index
  | l :: ls =>
    match strip l with
    | [] => .error .index
    | c :: t =>
      if c = '#' then (if t = [] then getHeaders ls else .ok (split t))
      else .ok (split (c :: t))

/-- `xs.index(x)` -/
def indexOf? (x : Word) : List Word → Option Nat
  | [] => none
  | y :: ys => if y = x then some 0 else (indexOf? x ys).map (· + 1)

/-- csvlib.py l. 160-190, `get_headers_index`: names that are not found are left out. -/
def headersIndex (headers load : List Word) : List Nat :=
  if load = [] then List.range headers.length
  else load.filterMap (fun lh => indexOf? (lowerW lh) (headers.map lowerW))

/-- The words of one line for `numpy.loadtxt`: the comment is cut, an empty rest is no sample. -/
def lineWords (l : Word) : Option (List Word) :=
  let c := l.takeWhile (· ≠ '#')
  if c = [] then none else some (split c)

/-- `usecols` and conversion of one line. -/
def pick (parse : Word → Option K) (his : List Nat) (ws : List Word) : Except Err (List K) :=
  his.mapM (fun i => match ws[i]? with
    | none => .error .value
    | some w => match parse w with
      | none => .error .value
      | some x => .ok x)

/-- `numpy.loadtxt` after the lines to skip were dropped. -/
def loadRows (parse : Word → Option K) (his : List Nat) (lines : List Word) : Except Err (List (List K)) :=
  (lines.filterMap lineWords).mapM (pick parse his)

/-- The four values returned by `load_csv`. -/
structure Loaded (K : Type) where
  data : List (List K)
  headers : List Word
  pos : Nat
  eof : Bool
deriving DecidableEq, Repr

/-- csvlib.py l. 226-267, `load_csv`. `skiprows` counts lines of the file, comments included. -/
def loadCsv (parse : Word → Option K) (file : List Word) (load : List Word) (nsamples : Option Nat) (skip : Nat) :
    Except Err (Loaded K) := do
  let headers ← getHeaders file
  let his := headersIndex headers load
  if load ≠ [] ∧ his.length ≠ load.length then throw .value
  let rows ← loadRows parse his (file.drop skip)
  let eof := match nsamples with
    | none => true
    | some n => decide (n = rows.length)
  let data := match nsamples with
    | none => rows
    | some n => rows.take (min n rows.length)
  return { data := data, headers := his.map (fun i => headers.getD i []), pos := skip + data.length, eof := eof }

end

end Verif.Csv
