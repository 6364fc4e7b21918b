import Verif.Model.Directive

/-!
Model of the calls `analysis[an_type](circ, **an_item)` of ahkab.py:713: which keyword arguments
the functions of the dictionary `analysis` (860-863) accept, which entries the constructors
`new_*` (201-657) and `parse_single_analysis` produce, and what `main` adds (943-949).

`pss_analysis(*largs, **args)` (pss.py:81-107) takes `method` out and hands the rest to
`shooting_analysis` or `bfpss`, so it is given by the signatures of these.
-/

namespace Verif.Call
open Verif.Directive

/-- Parameters after the first one, which is the circuit: required, optional. -/
structure Sig where
  first : String
  required : List String
  optional : List String
deriving DecidableEq

/-- dc_analysis.py:598, 461; transient.py:121; ac.py:146; symbolic.py:103; pz.py:135;
shooting.py:40; bfpss.py:43; ahkab.py:797. -/
def sigOp : Sig := ⟨"circ", [], ["x0", "guess", "outfile", "verbose"]⟩
def sigDc : Sig := ⟨"circ", ["start", "stop", "step", "source"],
  ["sweep_type", "guess", "x0", "outfile", "verbose"]⟩
def sigTran : Sig := ⟨"circ", ["tstart", "tstep", "tstop"],
  ["method", "use_step_control", "x0", "mna", "N", "D", "outfile", "return_req_dict", "verbose"]⟩
def sigAc : Sig := ⟨"circ", ["start", "points", "stop"],
  ["sweep_type", "x0", "mna", "AC", "Nac", "J", "outfile", "verbose"]⟩
def sigSymbolic : Sig := ⟨"circ", [], ["source", "ac_enable", "r0s", "subs", "outfile", "verbose"]⟩
def sigPz : Sig := ⟨"mc", [], ["input_source", "output_port", "MNA", "x0", "shift", "outfile",
  "verbose"]⟩
def sigShooting : Sig := ⟨"circ", ["period"], ["step", "x0", "points", "autonomous", "matrices",
  "outfile", "vector_norm", "verbose"]⟩
def sigBfpss : Sig := ⟨"circ", ["period"], ["step", "points", "autonomous", "x0", "mna", "Tf", "D",
  "outfile", "vector_norm", "verbose"]⟩
def sigTemp : Sig := ⟨"T", [], []⟩

/-- Does Python bind the keywords `keys` (a set) to the parameters? Otherwise `TypeError`. -/
def Binds (s : Sig) (keys : String → Bool) : Prop :=
  (∀ k, keys k = true → k ∈ s.required ∨ k ∈ s.optional) ∧
  (∀ k ∈ s.required, keys k = true) ∧ keys s.first = false

/-- Is the call of line 713 accepted, for an analysis of type `ty` with these other entries? -/
def Accepted (ty : String) (keys : String → Bool) : Prop :=
  match ty with
  | "op" => Binds sigOp keys
  | "dc" => Binds sigDc keys
  | "tran" => Binds sigTran keys
  | "ac" => Binds sigAc keys
  | "symbolic" => Binds sigSymbolic keys
  | "pz" => Binds sigPz keys
  | "pss" => keys "method" = true ∧
      Binds sigShooting (fun k => k != "method" && keys k) ∧
      Binds sigBfpss (fun k => k != "method" && keys k)
  | "temp" => Binds sigTemp keys
  | _ => False

/-- The entries of what the constructors `new_*` return, without the type. -/
def newKeys : String → Option (List String)
  | "op" => some ["guess", "x0", "outfile", "verbose"]
  | "dc" => some ["start", "stop", "step", "source", "x0", "outfile", "guess", "sweep_type",
      "verbose"]
  | "tran" => some ["tstart", "tstop", "tstep", "method", "use_step_control", "x0", "outfile",
      "verbose"]
  | "ac" => some ["start", "stop", "points", "sweep_type", "x0", "outfile", "verbose"]
  | "pss" => some ["method", "period", "points", "autonomous", "x0", "outfile", "verbose"]
  | "pz" => some ["input_source", "x0", "output_port", "shift", "MNA", "outfile", "verbose"]
  | "symbolic" => some ["source", "ac_enable", "r0s", "subs", "outfile", "verbose"]
  | _ => none

/-- What `main` passes for an analysis of a netlist: all entries but the type, and `outfile`,
`verbose`. -/
def mainKeys (an : Dict) (k : String) : Bool :=
  k != "type" && ((an k).isSome || k == "outfile" || k == "verbose")

/-- `parse_temp_directive`, netlist_parser.py:1453-1466: the entries without the type. -/
def tempKeys : List String := ["temp"]

end Verif.Call
