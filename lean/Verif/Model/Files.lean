import Verif.Model.Circuit

/-!
Model of the files the analyses write and the post-processing reads: the names chosen by `new_*`
(ahkab.py:238-249, 305-316, 371-382, 434-445, 501-512, 561-572, 644-655) and by `main` (ahkab.py:939-941),
`solution._add_data` and `solution.__getitem__` (results.py:121-124, 178-186) with `csvlib`, and
`process_postproc` (ahkab.py:806-857).

Contents are left abstract (`δ`). A file that cannot be opened is not modelled.
-/

namespace Verif.Files
open Verif.Circuit (Err)

abbrev Name := List Char

def stdoutName : Name := "stdout".toList

/-- the files: name and contents, last writer wins -/
abbrev FS (δ : Type) := Name → Option δ

def FS.write {δ : Type} (fs : FS δ) (n : Name) (d : δ) : FS δ := fun m => if m = n then some d else fs m

/-- The types of analyses that store results in a file. -/
inductive Typ where
  | op | dc | tran | ac | pss | bfpss | shooting | pz | symbolic
deriving DecidableEq, Repr

/-- the suffix added by `new_*`; `main` adds the type, `.pss` for both PSS methods -/
def Typ.suffix : Typ → Name
  | .op => ".op".toList
  | .dc => ".dc".toList
  | .tran => ".tran".toList
  | .ac => ".ac".toList
  | .pss => ".pss".toList
  | .bfpss => ".brute-force".toList
  | .shooting => ".shooting".toList
  | .pz => ".pz".toList
  | .symbolic => ".symbolic".toList

/-- `new_*`: the parameter `outfile`, `options.cli` and the name of a new temporary file. -/
def newName (cli : Bool) (tmp : Name) (outfile : Option Name) (t : Typ) : Name :=
  match outfile with
  | none => if cli then stdoutName else tmp
  | some o => if o = stdoutName then (if cli then stdoutName else tmp) else o ++ t.suffix

/-- `main`, lines 939-941, for a directive without `outfile`. -/
def mainName (outfile : Name) (t : Typ) : Name := if outfile = stdoutName then outfile else outfile ++ t.suffix

/-- An analysis that was executed: what it computed and where it put it. -/
structure Res (δ : Type) where
  file : Name
  data : δ

/-- Executing analyses one after the other: each rewrites its file (`append=self._init_file_done`,
results.py:121-124, with the flag of a new object unset); output to `stdout` leaves no file. -/
def exec {δ : Type} (fs : FS δ) : List (Res δ) → FS δ
  | [] => fs
  | r :: l => exec (if r.file = stdoutName then fs else fs.write r.file r.data) l

/-- `solution.__getitem__`, `get_x`, ..., of a variable that exists: `load_csv` returns `None` for
`stdout`, so `data.reshape` is an `AttributeError`. -/
def read {δ : Type} (fs : FS δ) (r : Res δ) : Except Err δ :=
  if r.file = stdoutName then .error .attr
  else match fs r.file with
    | some d => .ok d
    | none => .error .exn

/-! ### process_postproc -/

/-- A parsed post-processing directive; `an` is the analysis of a plot. -/
inductive Post where
  | plot (an : Typ)
  | four (nvars : Nat)
  | fft
deriving DecidableEq, Repr

/-- What is produced: a plot file, a table printed or written to a file. The content of tables is
identified by the position of the directive. -/
inductive Out where
  | plotFile (name : Name)
  | printed (index : Nat)
  | written (name : Name) (index : Nat)
deriving DecidableEq, Repr

/-- `"%s-%d.%s" % (outfilename, index, options.plotting_outtype)`; `num` is `%d`. -/
def plotName (num : Nat → Name) (outtype base : Name) (i : Nat) : Name := base ++ '-' :: (num i ++ '.' :: outtype)

/-- `outfilename + '.lis'*(outfilename!='stdout')` -/
def lisName (base : Name) : Name := if base = stdoutName then base else base ++ ".lis".toList

/-- The results passed: for each type its file, if such an analysis was executed. -/
abbrev Results (δ : Type) := Typ → Option (Res δ)

/-- `results['tran']` and reading a variable of it. -/
def needTran {δ : Type} (fs : FS δ) (rs : Results δ) : Except Err Unit :=
  match rs .tran with
  | none => .error .key
  | some r => match read fs r with
    | .ok _ => .ok ()
    | .error e => .error e

/-- One directive, lines 838-855. -/
def step {δ : Type} (num : Nat → Name) (outtype base : Name) (fs : FS δ) (rs : Results δ) (skip : Bool) (i : Nat) :
    Post → Except Err (List Out)
  | .plot an =>
    if skip then .ok []
    else match rs an with
      | none => .error .key
      | some r => match read fs r with
        | .ok _ => .ok [.plotFile (plotName num outtype base i)]
        | .error e => .error e
  | .four n =>
    if n = 0 then .ok []
    else match needTran fs rs with
      | .error e => .error e
      | .ok _ => .ok (List.replicate n (.printed i))
  | .fft =>
    match needTran fs rs with
    | .error e => .error e
    | .ok _ => .ok [if base = stdoutName then .printed i else .written (lisName base) i]

/-- The loop over the directives. -/
def steps {δ : Type} (num : Nat → Name) (outtype base : Name) (fs : FS δ) (rs : Results δ) (skip : Bool) :
    Nat → List Post → Except Err (List Out)
  | _, [] => .ok []
  | i, p :: l =>
    match step num outtype base fs rs skip i p with
    | .error e => .error e
    | .ok o => match steps num outtype base fs rs skip (i + 1) l with
      | .error e => .error e
      | .ok os => .ok (o ++ os)

def Post.isPlot : Post → Bool
  | .plot _ => true
  | _ => false

/-- `process_postproc`, lines 828-857. -/
def process {δ : Type} (num : Nat → Name) (outtype base : Name) (fs : FS δ) (rs : Results δ) (l : List Post) :
    Except Err (List Out) :=
  steps num outtype base fs rs (l.any (fun p => p.isPlot && decide (base = stdoutName))) 0 l

/-- the table written to the file `n` -/
def Out.table (n : Name) : Out → Option Nat
  | .written m i => if m = n then some i else none
  | _ => none

/-- The table left in the file `n`: `open(outfile, 'w')` discards what an earlier directive wrote. -/
def finalTable (n : Name) : List Out → Option Nat
  | [] => none
  | o :: l => (finalTable n l).or (o.table n)

/-! ### plot_results -/

/-- the second label is given, but there is no such variable -/
def unknown (has : Name → Bool) : Option Name → Bool
  | some n => !n.isEmpty && !has n
  | none => false

/-- The labels of a plot, plotting.py:207-224: a pair is `(y2, y1)`; `has` says which variables exist.
A missing one is a `KeyError` (results.py:186), while `ValueError` is what is caught. The lines drawn. -/
def plotLines (has : Name → Bool) : List (Name × Option Name) → Except Err (List (Name × Option Name))
  | [] => .ok []
  | (y2, y1) :: l =>
    if unknown has y1 then .error .key
    else if !has y2 then .error .key
    else match plotLines has l with
      | .error e => .error e
      | .ok r => .ok ((y2, y1) :: r)

end Verif.Files
