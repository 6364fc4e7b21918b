import Verif.Model.Csv

/-!
# Where results go: `_get_fp` and `_close_fp` of `ahkab/csvlib.py`, `_add_data` and `__getitem__` of `ahkab/results.py`

The names `stdout` and `-` stand for the standard output (csvlib.py:129), other names for files.

Simplifications: the data have one row for each header (no warning, csvlib.py:93-95); files can always be opened for writing;
the buffer of the standard output and the standard output itself are one stream (Python 3: writing to either fails once
the buffer is closed, with `ValueError`).
-/

namespace Verif.Streams
open Verif.Csv

inductive Err where
  | value | attr | key | index | io
deriving DecidableEq, Repr

/-- what has been written so far; `isOpen`: the standard output has not been closed -/
structure World where
  files : Word → Option (List Word)
  out : List Word
  isOpen : Bool

def isStd (name : Word) : Bool := name = "stdout".toList || name = ['-']

/-- `print(line)` -/
def World.print (w : World) (line : Word) : World × Option Err :=
  if w.isOpen then ({ w with out := w.out ++ [line] }, none) else (w, some .value)

/-- `_close_fp`, csvlib.py:140-148, for the standard output -/
def World.closeStd (w : World) (name : Word) : World := if name = "stdout".toList then w else { w with isOpen := false }

section
variable {K : Type}

/-- `write_csv`, csvlib.py:64-100 -/
def World.write (fmt : K → Word) (w : World) (name : Word) (rows : List (List K)) (headers : List Word) (append : Bool) :
    World × Option Err :=
  if isStd name then
    if w.isOpen then (World.closeStd { w with out := w.out ++ writeCsv fmt [] rows headers append } name, none)
    else (w, some .value)
  else ({ w with files := fun n => if n = name then some (writeCsv fmt ((w.files name).getD []) rows headers append) else w.files n }, none)

/-- repeated `_add_data`, results.py:118-124: the first one writes the header; `done` is `_init_file_done` -/
def World.add (fmt : K → Word) (name : Word) (headers : List Word) : World → Bool → List (List (List K)) → World × Option Err
  | w, _, [] => (w, none)
  | w, done, rows :: rest =>
    match w.write fmt name rows headers done with
    | (w', some e) => (w', some e)
    | (w', none) => w'.add fmt name headers true rest

/-- `solution.__getitem__`, results.py:178-186, with `load_csv`, csvlib.py:250-266 -/
def World.get (parse : Word → Option K) (w : World) (name var : Word) : World × Except Err (List K) :=
  if name = "stdout".toList then
    match w.print "Can't load data from stdout.".toList with
    | (w', none) => (w', .error .attr)
    | (w', some _) => (w', .error .key)
  else if name = ['-'] then
    match w.print "(EE) Mode r is not supported for stdout.".toList with
    | (w', none) => (w', .error .attr)
    | (w', some _) => (w', .error .key)
  else
    match w.files name with
    | none => (w, .error .io)
    | some file =>
      match loadCsv parse file [var] none 0 with
      | .error .value => (w, .error .key)
      | .error .index => (w, .error .index)
      | .ok l => (w, .ok l.data.flatten)

end

end Verif.Streams
