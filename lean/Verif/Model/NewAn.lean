import Verif.Model.Directive

/-!
Model of the analysis descriptions made by `new_op`, `new_dc`, `new_tran`, `new_ac`, `new_pss`, `new_pz` and `new_symbolic`
(ahkab.py:195-658), of what `main` adds to the descriptions of a netlist (ahkab.py:942-948) and of the call
`analysis[an_type](circ, **an_item)` of `run` (ahkab.py:714, 860-863; pss.py:81-113).

A description is a dictionary as in `Verif.Directive`. The signatures are those of dc_analysis.py:461 and 598, ac.py:146, transient.py:121,
shooting.py:40, bfpss.py:43, pz.py:135 and symbolic.py:103, without the circuit.

Simplifications: the name of the results file (C130) and the verbosity are parameters; labels in `x0` are not resolved (see C113, C209); a
default that is a function is kept as a text.
-/

namespace Verif.NewAn
open Verif.Small Verif.Directive

/-- the literal `{k: v, ...}` -/
def dict (l : List (String × Option Val)) : Dict := fun k => (l.find? fun x => x.1 = k).map (·.2)

/-- `d.pop(k)` -/
def pop (d : Dict) (k : String) : Dict := fun k' => if k' = k then none else d k'

/-- ahkab.py:237-250; `options.dc_use_guess` is True -/
def newOp (guess x0 outfile verbose : Option Val) : Dict :=
  dict [("type", txt "op"), ("guess", guess.orElse fun _ => some (.bool true)), ("x0", x0), ("outfile", outfile), ("verbose", verbose)]

/-- ahkab.py:306-319 (`none`: ZeroDivisionError) -/
def newDc (start stop points : ℚ) (source sweepType guess x0 outfile verbose : Option Val) : Option Dict :=
  if points - 1 = 0 then none
  else some (dict [("type", txt "dc"), ("start", num start), ("stop", num stop), ("step", num ((stop - start) / (points - 1))),
    ("source", source), ("x0", x0), ("outfile", outfile), ("guess", guess), ("sweep_type", sweepType), ("verbose", verbose)])

/-- ahkab.py:372-384 -/
def newTran (tstart tstop tstep x0 method useStepControl outfile verbose : Option Val) : Dict :=
  dict [("type", txt "tran"), ("tstart", tstart), ("tstop", tstop), ("tstep", tstep), ("method", method),
    ("use_step_control", useStepControl), ("x0", x0), ("outfile", outfile), ("verbose", verbose)]

/-- ahkab.py:435-448 -/
def newAc (start stop points x0 sweepType outfile verbose : Option Val) : Dict :=
  dict [("type", txt "ac"), ("start", start), ("stop", stop), ("points", points), ("sweep_type", sweepType), ("x0", x0),
    ("outfile", outfile), ("verbose", verbose)]

/-- ahkab.py:502-514 -/
def newPss (period x0 points method autonomous outfile verbose : Option Val) : Dict :=
  dict [("type", txt "pss"), ("method", method), ("period", period), ("points", points), ("autonomous", autonomous), ("x0", x0),
    ("outfile", outfile), ("verbose", verbose)]

/-- ahkab.py:562-574 -/
def newPz (inputSource outputPort shift MNA outfile x0 verbose : Option Val) : Dict :=
  dict [("type", txt "pz"), ("input_source", inputSource), ("x0", x0), ("output_port", outputPort), ("shift", shift), ("MNA", MNA),
    ("outfile", outfile), ("verbose", verbose)]

/-- ahkab.py:645-657 -/
def newSymbolic (source acEnable r0s subs outfile verbose : Option Val) : Dict :=
  dict [("type", txt "symbolic"), ("source", source), ("ac_enable", acEnable), ("r0s", r0s), ("subs", subs), ("outfile", outfile),
    ("verbose", verbose)]

/-- ahkab.py:943-948 for a description that has no entries `outfile` and `verbose` -/
def withMain (outfile verbose : Option Val) (an : Dict) : Dict := (an.set "outfile" outfile).set "verbose" verbose

/-- a parameter of a function; without default it has to be given -/
structure Param where
  name : String
  default : Option (Option Val)

def req (n : String) : Param := ⟨n, none⟩
def opt (n : String) (v : Option Val) : Param := ⟨n, some v⟩

def sigOp : List Param := [opt "x0" none, opt "guess" (some (.bool true)), opt "outfile" none, opt "verbose" (num 3)]
def sigDc : List Param := [req "start", req "stop", req "step", req "source", opt "sweep_type" (txt "LINEAR"),
  opt "guess" (some (.bool true)), opt "x0" none, opt "outfile" (txt "stdout"), opt "verbose" (num 3)]
def sigAc : List Param := [req "start", req "points", req "stop", opt "sweep_type" none, opt "x0" none, opt "mna" none, opt "AC" none,
  opt "Nac" none, opt "J" none, opt "outfile" (txt "stdout"), opt "verbose" (num 3)]
def sigTran : List Param := [req "tstart", req "tstep", req "tstop", opt "method" (txt "TRAP"), opt "use_step_control" (some (.bool true)),
  opt "x0" none, opt "mna" none, opt "N" none, opt "D" none, opt "outfile" (txt "stdout"), opt "return_req_dict" none, opt "verbose" (num 3)]
def sigShooting : List Param := [req "period", opt "step" none, opt "x0" none, opt "points" none, opt "autonomous" (some (.bool false)),
  opt "matrices" none, opt "outfile" (txt "stdout"), opt "vector_norm" (txt "max(abs(v))"), opt "verbose" (num 3)]
def sigBf : List Param := [req "period", opt "step" none, opt "points" none, opt "autonomous" (some (.bool false)), opt "x0" none,
  opt "mna" none, opt "Tf" none, opt "D" none, opt "outfile" (txt "stdout"), opt "vector_norm" (txt "max(abs(v))"), opt "verbose" (num 3)]
def sigPz : List Param := [opt "input_source" none, opt "output_port" none, opt "MNA" none, opt "x0" none, opt "shift" (num 0),
  opt "outfile" none, opt "verbose" (num 0)]
def sigSymbolic : List Param := [opt "source" none, opt "ac_enable" (some (.bool true)), opt "r0s" (some (.bool false)), opt "subs" none,
  opt "outfile" none, opt "verbose" (num 3)]

/-- `pss_analysis`, pss.py:104-113 (`none`: AttributeError or "Unknown PSS method") -/
def pssTarget (an : Dict) : Option (List Param × Dict) :=
  match an "method" with
  | some (some (.text m)) =>
    let l := String.ofList (m.map Char.toLower)
    if l = "shooting" then some (sigShooting, pop an "method")
    else if l = "brute-force" then some (sigBf, pop an "method")
    else none
  | _ => none

/-- The function that `run` calls and the dictionary of arguments that it is called with, ahkab.py:709, 714 -/
def target (an : Dict) : Option (List Param × Dict) :=
  match an "type" with
  | some (some (.text t)) =>
    let d := pop an "type"
    match String.ofList t with
    | "op" => some (sigOp, d)
    | "dc" => some (sigDc, d)
    | "ac" => some (sigAc, d)
    | "tran" => some (sigTran, d)
    | "pss" => pssTarget d
    | "pz" => some (sigPz, d)
    | "symbolic" => some (sigSymbolic, d)
    | _ => none
  | _ => none

/-- the value that a parameter has in the call `f(circ, **d)` -/
def value (d : Dict) (p : Param) : Option (Option Val) := (d p.name).orElse fun _ => p.default

end Verif.NewAn
