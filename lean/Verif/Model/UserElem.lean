import Verif.Model.Small
import Verif.Model.Nodes

/-!
Model of `parse_elem_user_defined` (netlist_parser.py:1075-1174) with `circuit.user_defined_modules_dict` (circuit.py:134).

Simplifications: the line comes as its tokens, none of them empty. Modules, classes and elements are opaque: the parameters say
which modules can be imported, which classes they have, what their constructors return or raise, and what `check` says. The
constructor is taken to make no nodes. A name of a module or class that is a number, e.g. `module=1`, raises TypeError in
`imp.find_module` and `getattr`. Every import is noted down in `imports`, which is not part of the code.
-/

namespace Verif.UserElem
open Verif.Small

abbrev Txt := List Char

inductive YErr where
  /-- NetlistParseError -/
  | parse
  /-- TypeError -/
  | type
  /-- an exception of the constructor -/
  | ctor
  /-- NameError -/
  | name
deriving DecidableEq, Repr

/-- what the world outside does -/
structure Env (Mod Cls El : Type) where
  find : Txt → Option Mod
  cls : Mod → Txt → Option Cls
  make : Cls → Nodes.Res → Nodes.Res → List (Txt × Val) → Txt → Option El
  check : El → Bool

structure World (Mod : Type) where
  circ : Nodes.Circ
  loaded : List (Txt × Mod)
  imports : List Txt

/-- the loop over the parameters, lines 1121-1131; `acc` is `param_dict` -/
def params : List Txt → List (Txt × Val) → Except YErr (List (Txt × Val))
  | [], acc => .ok acc
  | tok :: r, acc =>
    if tok.head? = some '*' then .ok acc
    else match paramValue tok .float with
      | none => .error .parse
      | some (p, v) => if p ∈ acc.map Prod.fst then .error .parse else params r (acc ++ [(p, v)])

/-- `param_dict.pop(key)` -/
def pop (key : Txt) (d : List (Txt × Val)) : Option Val × List (Txt × Val) :=
  ((d.find? fun p => p.1 = key).map Prod.snd, d.filter fun p => p.1 ≠ key)

variable {Mod Cls El : Type}

/-- lines 1138-1147 -/
def load (env : Env Mod Cls El) (w : World Mod) (name : Txt) : World Mod × Except YErr Mod :=
  match w.loaded.find? fun p => p.1 = name with
  | some p => (w, .ok p.2)
  | none => match env.find name with
    | none => (w, .error .parse)
    | some m => ({ w with loaded := w.loaded ++ [(name, m)], imports := w.imports ++ [name] }, .ok m)

/-- lines 1161-1174, for a class that was found -/
def build (env : Env Mod Cls El) (w : World Mod) (c : Cls) (id n1 n2 : Txt) (d : List (Txt × Val)) : World Mod × Except YErr El :=
  let a := Nodes.addNode w.circ (String.ofList n1)
  let b := Nodes.addNode a.1 (String.ofList n2)
  let w := { w with circ := b.1 }
  match env.make c a.2 b.2 d id with
  | none => (w, .error .ctor)
  | some e => if env.check e then (w, .ok e) else (w, .error .parse)

/-- lines 1149-1159 -/
def withClass (env : Env Mod Cls El) (w : World Mod) (m : Mod) (id n1 n2 : Txt) (d : List (Txt × Val)) : World Mod × Except YErr El :=
  match pop "type".toList d with
  | (none, _) => (w, .error .parse)
  | (some (.text t), d) => match env.cls m t with
    | none => (w, .error .parse)
    | some c => build env w c id n1 n2 d
  | (some _, _) => (w, .error .type)

/-- `parse_elem_user_defined` -/
def parseY (env : Env Mod Cls El) (w : World Mod) : List Txt → World Mod × Except YErr El
  | id :: n1 :: n2 :: p :: r => match params (p :: r) [] with
    | .error e => (w, .error e)
    | .ok d => match pop "module".toList d with
      | (none, _) => (w, .error .parse)
      | (some (.text name), d) => match load env w name with
        | (w, .error e) => (w, .error e)
        | (w, .ok m) => withClass env w m id n1 n2 d
      | (some _, _) => (w, .error .type)
  | _ => (w, .error .parse)

/-- a sequence of lines, those that are refused included -/
def parseAll (env : Env Mod Cls El) (w : World Mod) (lines : List (List Txt)) : World Mod :=
  lines.foldl (fun w l => (parseY env w l).1) w

/-- the names of the module `circuit`, circuit.py:119-134 and its classes and functions -/
def globals : List String := ["unicode_literals", "absolute_import", "division", "print_function", "copy", "math", "components", "diode",
  "ekv", "mosq", "printing", "py3compat", "switch", "user_defined_modules_dict", "Circuit", "subckt", "_circuit_wrapper",
  "is_elem_voltage_defined", "NodeNotFoundError", "CircuitError", "ModelError"]

/-- the names that `add_user_defined` uses, in the order in which they are looked up up to the first call, circuit.py:982-985; its
parameters are `self`, `module`, `label` and `param_dict` -/
def used : List String := ["module_name", "circuit", "imp"]

/-- `add_user_defined(module, label, param_dict)`, circuit.py:973-1005: a name that is neither a parameter nor a name of the module raises
NameError. (`rest`: what the function does if all names are found; no name is built in.) -/
def addUserDefined (names : List String) (rest : World Mod → World Mod × Except YErr El) (w : World Mod) : World Mod × Except YErr El :=
  if used.all fun n => n ∈ ["self", "module", "label", "param_dict"] ++ names then rest w else (w, .error .name)

end Verif.UserElem
