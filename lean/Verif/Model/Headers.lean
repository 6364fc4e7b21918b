import Verif.Model.Csv

/-!
# `write_headers` of `ahkab/csvlib.py` (l. 103-123)

Simplifications: files can always be opened for writing; the standard output is open and not buffered. `buffer` says whether
`sys.stdout` has the attribute `buffer` (it has in Python 3, unless replaced by a stream such as `io.StringIO`).
-/

namespace Verif.Headers
open Verif.Csv

inductive Err where
  | index | type
deriving DecidableEq, Repr

/-- text of the files and what was written to the standard output -/
structure World where
  files : Word → Option Word
  out : Word

/-- csvlib.py:117-118: `copy.copy` of the list with `'#'` in front of the first name, unless it is there -/
def marked : List Word → Except Err (List Word)
  | [] => .error .index
  | [] :: _ => .error .index
  | (c :: w) :: ws => .ok (if c = '#' then (c :: w) :: ws else ('#' :: c :: w) :: ws)

/-- the loop, csvlib.py:119-124, from index `hi` of the list on; `text` is false for streams of bytes, whose `write` raises `TypeError`
for `str` -/
def loop (text : Bool) : Word → List Word → Word × Option Err
  | acc, [] => (acc, none)
  | acc, w :: ws =>
    if text = false then (acc, some .type)
    else if ws = [] then (acc ++ w ++ ['\n'], none)
    else loop text (acc ++ w ++ [sep]) ws

/-- `write_headers(filename, headers)`: `_get_fp(filename, 'wb')` (csvlib.py:127-137) makes the file empty -/
def World.writeHeaders (buffer : Bool) (w : World) (name : Word) (headers : List Word) : World × Option Err :=
  if name = "stdout".toList ∨ name = ['-'] then
    match marked headers with
    | .error e => (w, some e)
    | .ok hs => let r := loop (!buffer) w.out hs; ({ w with out := r.1 }, r.2)
  else
    let w := { w with files := fun n => if n = name then some [] else w.files n }
    match marked headers with
    | .error e => (w, some e)
    | .ok hs => let r := loop false [] hs; ({ w with files := fun n => if n = name then some r.1 else w.files n }, r.2)

end Verif.Headers
