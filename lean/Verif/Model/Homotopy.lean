import Mathlib.Data.List.Basic

/-!
Model of the control flow of `dc_solve` (dc_analysis.py:248-320) with
`set_next_solve_method` (354-408), `more_solve_methods_available` (411-430) and
`get_solve_methods` (433-458).

The Newton solver is an oracle: its `n`-th call converges or not (singular matrix and
overflow count as "not"). What is recorded is the system each call was given.
-/

namespace Verif.Homotopy

/-- `options.use_*`, options.py:62-68, and the number of Gmin factors
(`-int(numpy.log(options.gmin))`, 27 by default). -/
structure Opts where
  std : Bool
  gmin : Bool
  src : Bool
  ngmin : Nat := 27
deriving DecidableEq, Repr

/-- One of the three dictionaries, lines 450-457. -/
structure Meth where
  enabled : Bool := false
  failed : Bool := false
  index : Nat := 0
deriving DecidableEq, Repr

/-- The system handed to the Newton solver (`mna_to_pass`, `N_to_pass`): the circuit itself;
the circuit with the Gmin factor of some index; with the sources scaled by the factor of
some index. -/
inductive Sys where
  | full
  | gmin (i : Nat)
  | src (i : Nat)
deriving DecidableEq, Repr

structure State where
  std : Meth
  gm : Meth
  src : Meth
  /-- `mna_to_pass`/`N_to_pass`, unbound at first; they keep their value when no method is
  enabled -/
  sys : Option Sys
deriving DecidableEq, Repr

/-- `get_solve_methods` -/
def init : State := ⟨{}, {}, {}, none⟩

/-- `set_next_solve_method`, lines 383-407. -/
def setNext (o : Opts) (s : State) : State :=
  let s1 :=
    if s.std.enabled then { s with std := { s.std with enabled := false, failed := true } }
    else if s.gm.enabled then { s with gm := { s.gm with enabled := false, failed := true } }
    else if s.src.enabled then { s with src := { s.src with enabled := false, failed := true } }
    else s
  if !s1.std.failed && o.std then { s1 with std := { s1.std with enabled := true } }
  else if !s1.gm.failed && o.gmin then { s1 with gm := { s1.gm with enabled := true } }
  else if !s1.src.failed && o.src then { s1 with src := { s1.src with enabled := true } }
  else s1

/-- `more_solve_methods_available`, lines 425-430. -/
def moreAvailable (o : Opts) (s : State) : Bool :=
  !((s.std.failed || !o.std) && (s.gm.failed || !o.gmin) && (s.src.failed || !o.src))

/-- Lines 259-279: which system is solved (`.inl`: an exception). -/
inductive Exn where
  | unbound | index
deriving DecidableEq, Repr

def choose (o : Opts) (s : State) : Except Exn Sys :=
  if s.std.enabled then .ok .full
  else if s.gm.enabled then
    if s.gm.index < o.ngmin then .ok (.gmin s.gm.index) else .error .index
  else if s.src.enabled then
    if s.src.index < 10 then .ok (.src s.src.index) else .error .index
  else match s.sys with
    | some y => .ok y
    | none => .error .unbound

inductive Step where
  | next (s : State)
  | success
  | failure
deriving DecidableEq, Repr

/-- Lines 295-319: what happens after a solve. -/
def after (o : Opts) (s : State) (converged : Bool) : Step :=
  if !converged then
    if moreAvailable o s then .next (setNext o s) else .failure
  else
    if s.src.enabled && s.src.index ≠ 9 then
      .next { s with src := { s.src with index := s.src.index + 1 } }
    else if s.gm.enabled && s.gm.index ≠ 9 then
      .next { s with gm := { s.gm with index := s.gm.index + 1 } }
    else .success

/-- How `dc_solve` ends. -/
inductive End where
  | success | failure | raised (e : Exn) | outOfFuel
deriving DecidableEq, Repr

/-- The `while` loop with a bound on the number of passes. `calls` lists the systems solved,
newest first; `oracle n` is the outcome of the `n`-th Newton solve (from 0). -/
def loop (o : Opts) (oracle : Nat → Bool) : Nat → State → List Sys → End × List Sys
  | 0, _, calls => (.outOfFuel, calls)
  | k + 1, s, calls => match choose o s with
    | .error e => (.raised e, calls)
    | .ok y =>
      match after o { s with sys := some y } (oracle calls.length) with
      | .next s' => loop o oracle k s' (y :: calls)
      | .success => (.success, y :: calls)
      | .failure => (.failure, y :: calls)

/-- `dc_solve`: the end and the systems solved, in order. -/
def dcSolve (o : Opts) (oracle : Nat → Bool) (fuel : Nat) : End × List Sys :=
  let r := loop o oracle fuel (setNext o init) []
  (r.1, r.2.reverse)

end Verif.Homotopy
