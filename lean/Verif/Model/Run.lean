/-!
Model of the execution of analyses: `queue`, `run` (ahkab.py:660-720), `_handle_netlist_ics`
(962-974), `get_op_x0` (781-794) and the loop over the analyses of a netlist in `main`
(941-957).

Simplifications: an analysis is its type, its `x0` entry and a payload of type `P` (all other
entries). What the functions of the dictionary `analysis` do is the parameter `exec`, which may
depend on and change a state `W` (the circuit, the options, files) and may raise (`Except E`).
The vector that an operating point stands for and the one with the initial conditions of the
circuit applied (`icmodified_x0`, which may raise) are the parameters `toX`, `icX`. In
`_handle_netlist_ics` the test `an_list.index(an) == 0` is taken to be "is the first"; an equal
later entry cannot be met, as the first one would have raised.
-/

namespace Verif.Run

/-- The entry `x0` of an analysis. -/
inductive X0 (X : Type) where
  | absent
  | none
  | label (s : String)
  | value (x : X)
deriving DecidableEq

/-- An analysis description. -/
structure Item (P X : Type) where
  type : String
  x0 : X0 X
  payload : P
deriving DecidableEq

/-- Exceptions: of the analysis, of `icmodified_x0`, and the `ValueError` of line 972. -/
inductive Err (E : Type) where
  | exec (e : E)
  | ic (e : E)
  | unavailable
deriving DecidableEq

/-- What the functions called by `run` do. -/
structure Env (W P X R E : Type) where
  exec : W → Item P X → W × Except E R
  toX : R → X
  icX : W → R → Except E X

variable {W P X R E : Type}

/-- The dictionary `_x0s`. -/
abbrev X0s (X : Type) := String → Option X

def X0s.set (d : X0s X) (k : String) (v : X) : X0s X := fun k' => if k' = k then some v else d k'

/-- The entry `x0` after lines 968-970. -/
def resolveX0 (d : X0s X) : X0 X → X0 X
  | .label s => match d s with
    | some v => .value v
    | none => .label s
  | x => x

def resolve (d : X0s X) (it : Item P X) : Item P X := { it with x0 := resolveX0 d it.x0 }

/-- Is the entry a text that is not available? -/
def missing (d : X0s X) : X0 X → Bool
  | .label s => (d s).isNone
  | _ => false

/-- `_handle_netlist_ics` with an empty list of conditions: the list after it, or the
`ValueError`. -/
def handle (d : X0s X) (items : List (Item P X)) : Option (List (Item P X)) :=
  match items with
  | [] => some []
  | a :: _ => if missing d a.x0 then none else some (items.map (resolve d))

/-- Lines 708-711: a text left in `x0` becomes `None`. -/
def dropLabel (it : Item P X) : Item P X :=
  match it.x0 with
  | .label _ => { it with x0 := .none }
  | _ => it

/-- An analysis executed, its result and the world after it. -/
structure Entry (W P X R : Type) where
  item : Item P X
  result : R
  world : W

/-- The state during a run. `left` is the list that analyses are taken from, `log` lists the
analyses executed, with their results, and is not part of the code. -/
structure St (W P X R : Type) where
  world : W
  x0s : X0s X
  left : List (Item P X)
  log : List (Entry W P X R)

/-- One round of the loop, lines 706-719, for the first analysis `a` and the others. -/
def step (env : Env W P X R E) (s : St W P X R) (a : Item P X) (rest : List (Item P X)) :
    St W P X R × Option (Err E) :=
  let it := dropLabel a
  match env.exec s.world it with
  | (w, .error e) => ({ s with world := w, left := rest }, some (.exec e))
  | (w, .ok r) =>
    let s' : St W P X R := { s with world := w, left := rest, log := s.log ++ [⟨it, r, w⟩] }
    if a.type = "op" then
      let d := s.x0s.set "op" (env.toX r)
      match env.icX w r with
      | .error e => ({ s' with x0s := d }, some (.ic e))
      | .ok x =>
        let d := d.set "op+ic" x
        match handle d rest with
        | none => ({ s' with x0s := d }, some .unavailable)
        | some rest' => ({ s' with x0s := d, left := rest' }, none)
    else (s', none)

/-- The loop, lines 705-719; `n` bounds the number of rounds. -/
def loop (env : Env W P X R E) : Nat → St W P X R → St W P X R × Option (Err E)
  | 0, s => (s, none)
  | n + 1, s => match s.left with
    | [] => (s, none)
    | a :: rest => match step env s a rest with
      | (s', some e) => (s', some e)
      | (s', none) => loop env n s'

/-- `results`: later analyses of a type replace earlier ones (line 714). -/
def resultsOf (log : List (Entry W P X R)) : String → Option R :=
  log.foldl (fun d e => fun t => if t = e.item.type then some e.result else d t) (fun _ => none)

/-- The module: state of the world, `_x0s`, `_queue`. -/
structure Sys (W P X : Type) where
  world : W
  x0s : X0s X
  queue : List (Item P X)

/-- `queue`, lines 660-674. -/
def enqueue (s : Sys W P X) (ans : List (Item P X)) : Sys W P X :=
  { s with queue := s.queue ++ ans }

/-- What a call of `run` gives: module state, what was executed, the results or exception. -/
structure RunOut (W P X R E : Type) where
  sys : Sys W P X
  log : List (Entry W P X R)
  out : Except (Err E) (String → Option R)

/-- `run`, lines 677-720, for the list of analyses (the empty list stands for `None`, too:
line 698 tests `not an_list`). -/
def run (env : Env W P X R E) (s : Sys W P X) (anList : List (Item P X)) : RunOut W P X R E :=
  let items := if anList.isEmpty then s.queue else anList
  let r := loop env items.length ⟨s.world, s.x0s, items, []⟩
  { sys := { world := r.1.world, x0s := r.1.x0s,
             queue := if anList.isEmpty then r.1.left else s.queue }
    log := r.1.log
    out := match r.2 with
      | some e => .error e
      | none => .ok (resultsOf r.1.log) }

/-- The loop over the analyses of a netlist, lines 942-953 (after the defaults for `outfile` and
`verbose`): all analyses executed, and the exception. -/
def mainLoop (env : Env W P X R E) : Sys W P X → List (Item P X) →
    Sys W P X × List (Entry W P X R) × Option (Err E)
  | s, [] => (s, [], none)
  | s, a :: rest =>
    match handle s.x0s [a] with
    | none => (s, [], some .unavailable)
    | some items =>
      let o := run env s items
      match o.out with
      | .error e => (o.sys, o.log, some e)
      | .ok _ =>
        let q := mainLoop env o.sys rest
        (q.1, o.log ++ q.2.1, q.2.2)

/-- Python values returned: a solution, or a dictionary of solutions. -/
inductive Ret (R : Type) where
  | solution (r : R)
  | dict (d : String → Option R)

/-- `get_op_x0`, lines 781-794: the value of `run(circ, [new_op()])` (`op` is what `new_op`
returns). -/
def getOpX0 (env : Env W P X R E) (s : Sys W P X) (op : Item P X) :
    Sys W P X × Except (Err E) (Ret R) :=
  let o := run env s [op]
  (o.sys, o.out.map Ret.dict)

end Verif.Run
