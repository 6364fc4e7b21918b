import Verif.Model.DfBuffer
import Verif.Model.Tran

/-!
Model of the first part of the shooting method (shooting.py:145-163): a transient analysis with a fixed step over ten times the
points, whose last states are the start of the iteration. For this `transient_analysis` is called with `return_req_dict`
(transient.py:263-268, 392-393, 411-426), which collects states in a `dfbuffer` and returns them with `get_as_matrix`
(transient.py:641-652).

A state is a column (an `n × 1` matrix in the code); for `get_as_matrix` it is the list of its entries, and a matrix is the list of
its columns. `transient_max_time_iter` is 0 (default, no limit). What is printed is left out, but the division of the message about
the average step (transient.py:418) is kept. Number of passes: `fuel`.
-/

namespace Verif.ShootInit
open Verif.DfBuffer
open Verif.Tran
open Verif.Op
open Verif.Circuit (Err)

/-- the inner loop of `get_as_matrix`, transient.py:643-647; without entries `single_matrix` has no value -/
def column {α : Type} (items : List (List (List α))) (v : Nat) : Except Err (List α) :=
  match items with
  | [] => .error .exn
  | a :: r => .ok (r.foldl (fun acc e => e.getD v [] ++ acc) (a.getD v []))

/-- one round of the outer loop, transient.py:642-651 -/
def appendCol {α : Type} (items : List (List (List α))) (acc : Option (List (List α))) (v : Nat) :
    Except Err (Option (List (List α))) :=
  match column items v with
  | .error e => .error e
  | .ok s => match acc with
    | none => .ok (some [s])
    | some cols => if cols.all (fun c => c.length == s.length) then .ok (some (cols ++ [s])) else .error .value

/-- `get_as_matrix`, transient.py:641-652 -/
def getAsMatrix {α : Type} (b : Buf (List α)) : Except Err (List (List α)) :=
  match (List.range b.width).foldlM (appendCol b.items) none with
  | .error e => .error e
  | .ok none => .error .exn
  | .ok (some cols) => .ok cols

variable {K : Type} [Field K] [LinearOrder K] {m : Nat}

/-- how `transient_analysis` ends -/
inductive Out (K : Type) (m : Nat) where
  /-- more passes are needed -/
  | more
  /-- `None` -/
  | failed
  | raised
  /-- the recorded points, and the matrix returned -/
  | done (points : List (Entry K m)) (cols : List (List K))

/-- `output_buffer.add((x,))` -/
def push (b : Buf (List K)) (x : Fin m → K) : Buf (List K) := (add b [List.ofFn x]).getD b

/-- transient.py:411-426 -/
def finish (s : St K m) (b : Buf (List K)) : Out K m :=
  if s.iter = 0 then .raised
  else match getAsMatrix b with
    | .error _ => .raised
    | .ok cols => .done s.points cols

/-- The loop without step control, transient.py:322-411. -/
noncomputable def loop (c : Cfg K) (n : Net K m) (x0 : Fin m → K) (tstop : K) : Nat → St K m → Buf (List K) → Out K m
  | 0, s, b => if s.time < tstop then .more else finish s b
  | k + 1, s, b =>
    if s.time < tstop then
      match pass c n x0 s (.keep s.tstep) with
      | .running s' => loop c n x0 tstop k s' (push b (s'.x.getD x0))
      | .halted _ => .failed
      | .raised _ => .raised
    else finish s b

/-- `transient_analysis(…, use_step_control=False, return_req_dict={"points": points})` from `x0` at `tstart` -/
noncomputable def transient (c : Cfg K) (n : Net K m) (x0 : Fin m → K) (tstart tstep tstop : K) (points fuel : Nat) : Out K m :=
  loop c n x0 tstop fuel (start c tstart tstep x0) (push (init points 1) x0)

/-- the call in shooting.py:148-155, with `x0=None`, that is zeros (transient.py:189) -/
noncomputable def initial (c : Cfg K) (n : Net K m) (step : K) (points fuel : Nat) : Out K m :=
  transient c n 0 0 step (10 * (points : K) * step) points fuel

/-- `x`, shooting.py:161-163: the blocks of the first column -/
def guess (n points : Nat) (cols : List (List K)) : List (List K) :=
  (List.range points).map fun i => (((cols.head?.getD []).take ((i + 1) * n)).drop (i * n))

end Verif.ShootInit
