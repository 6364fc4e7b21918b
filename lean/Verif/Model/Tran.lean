import Verif.Model.Op
import Verif.Model.DF
import Verif.Model.Transient
import Mathlib.Analysis.SpecialFunctions.Pow.Real

/-!
Model of `transient.transient_analysis` (transient.py:121-425) with the numbers it computes:
the choice of the differentiation formula, the history buffer, the system solved for each
point and what is stored.

The choice of the next step (lines 347-377, 392-396) is left open: `Ctl` says, for each pass
through the loop, whether the point is kept and which step is used next; `Model.Transient`
describes which choices the code makes. Printing is left out.
-/

namespace Verif.Tran
open Verif.Op Verif.Homotopy Matrix
open Verif.Circuit (Err)

variable {K : Type} [Field K] [LinearOrder K]

/-- The methods of lines 215-240 that belong to the simulator. -/
inductive Meth where
  | euler | trap | gear (order : Nat)
deriving DecidableEq, Repr

/-- `df.get_required_values()`: implicit_euler.py:105, trap.py:80, gear.py:119. -/
def Meth.required : Meth → (Option Nat × Option Nat) × (Option Nat × Option Nat)
  | .euler => ((some 0, none), (some 1, none))
  | .trap => ((some 0, some 0), (some 2, none))
  | .gear n => ((some n, none), (some n, none))

/-- Python 3's `max(a, b)` of an integer and an integer or `None`: comparing with `None` is a
`TypeError`. -/
def pyMax : Option Nat → Option Nat → Except Err Nat
  | some a, some b => .ok (max a b)
  | _, _ => .error .type

/-- `buffer_len`, lines 251-259. -/
def bufferLen (mt : Meth) (control : Bool) : Except Err Nat :=
  let r := mt.required
  if control then
    .ok ([r.1.1, r.1.2, r.2.1, r.2.2].foldl (fun b mx => match mx with
      | some k => max b k
      | none => b) 0 + 1)
  else match pyMax r.1.1 r.1.2 with
    | .ok k => .ok (k + 1)
    | .error e => .error e

/-- `first_iterations_number`, lines 273-281. -/
def firstIters (mt : Meth) : Nat :=
  match mt.required.1 with
  | (some x, some dx) => max x (dx + 1)
  | (some x, none) => if x > 0 then x else 0
  | (none, some dx) => max 1 (dx + 1)
  | (none, none) => 0

/-- `start_pred_iter`, lines 299-306 and 317. -/
def startPred (mt : Meth) : Nat :=
  max (mt.required.2.1.getD 0) (match mt.required.2.2 with
    | some dx => dx + 1
    | none => 0)

/-- an entry `(time, x, dxdt)` of the buffer -/
structure Entry (K : Type) (m : Nat) where
  t : K
  x : Fin m → K
  dx : Option (Fin m → K)

/-- what the loop uses of `get_df`: `x_coeff`, `const` and `prediction` -/
structure Formula (K : Type) (m : Nat) where
  c1 : K
  c0 : Fin m → K
  pred : Option (Fin m → K)

section
variable {m : Nat}

/-- time of the `k`-th entry (0 if there is none) -/
def tAt (h : List (Entry K m)) (k : Nat) : K := (h[k]?.map (·.t)).getD 0
def xAt (h : List (Entry K m)) (k : Nat) (i : Fin m) : K := (h[k]?.map (·.x i)).getD 0
def dxAt (h : List (Entry K m)) (k : Nat) (i : Fin m) : K := ((h[k]?.bind (·.dx)).map (· i)).getD 0

/-- `implicit_euler.get_df`, implicit_euler.py:180-205. -/
def eulerDf (h : List (Entry K m)) (step : K) (predict : Bool) : Except Err (Formula K m) :=
  if h.length = 0 then .error .index
  else
    let r := fun i => DF.implicitEuler (tAt h) (fun k => xAt h k i) step
    .ok { c1 := 1 / step
          c0 := fun i => (r i).c0
          pred := if predict && decide (h.length > 1) then some (fun i => (r i).pred) else none }

/-- `trap.get_df`, trap.py:154-192. -/
noncomputable def trapDf (h : List (Entry K m)) (step : K) (predict : Bool) : Except Err (Formula K m) :=
  match h with
  | [] => .error .index
  | e :: _ =>
    if e.dx.isNone then .error .value
    else if predict && decide (h.length < 2) then .error .value
    else if predict && decide (h.length < 3) then .error .index
    else
      let r := fun i => DF.trap (tAt h) (fun k => xAt h k i) (fun k => dxAt h k i) step
      .ok { c1 := 2 / step
            c0 := fun i => (r i).c0
            pred := if predict then some (fun i => (r i).pred) else none }

/-- `gear.get_df`, gear.py:122-208: the times of `order + 1` entries are needed. -/
def gearDf (n : Nat) (h : List (Entry K m)) (step : K) (predict : Bool) : Except Err (Formula K m) :=
  if h.length < n + 1 then .error .index
  else
    let r := fun i => DF.gear n (tAt h) (fun k => xAt h k i) step
    .ok { c1 := DF.gearGamma0 n (DF.gearS (tAt h) step)
          c0 := fun i => (r i).c0
          pred := if predict then some (fun i => (r i).pred) else none }

/-- `df.get_df` -/
noncomputable def Meth.df : Meth → List (Entry K m) → K → Bool → Except Err (Formula K m)
  | .euler, h, step, p => eulerDf h step p
  | .trap, h, step, p => trapDf h step p
  | .gear n, h, step, p => gearDf n h step p

/-- The formula for a pass, lines 323-333. -/
noncomputable def formula (mt : Meth) (control : Bool) (iter : Nat) (buf : List (Entry K m)) (step : K) :
    Except Err (Formula K m) :=
  let predict := control && decide (iter ≥ startPred mt)
  if iter < firstIters mt then
    match buf with
    | [] => .error .index
    | e :: _ => eulerDf [e] step predict
  else mt.df buf step predict

/-- The circuit: its matrices and vectors, the time dependent sources, and `options.gmin`. -/
structure Net (K : Type) (m : Nat) where
  mna : Matrix (Fin m) (Fin m) K
  D : Matrix (Fin m) (Fin m) K
  N : Fin m → K
  /-- `Tt`, dc_analysis.py:222-236 -/
  Tt : K → Fin m → K
  nn : Nat
  gmin : K
  nonlinear : Bool
  J : (Fin m → K) → Matrix (Fin m) (Fin m) K
  Tx : (Fin m → K) → (Fin m → K)
  locked : List (Nat × Nat)

/-- What is passed to `dc_solve`, lines 340-349. -/
def Net.at (n : Net K m) (f : Formula K m) (t : K) : Circ K m :=
  { mna := n.mna + f.c1 • n.D
    N := n.N + n.Tt t
    Ntran := n.D *ᵥ f.c0
    nn := n.nn
    nonlinear := n.nonlinear
    J := n.J
    Tx := n.Tx
    locked := n.locked }

/-- Loop variables and the points recorded by `sol.add_line` (oldest first). -/
structure St (K : Type) (m : Nat) where
  time : K
  tstep : K
  iter : Nat
  x : Option (Fin m → K)
  buf : List (Entry K m)
  points : List (Entry K m)

/-- what step control decides about a pass -/
inductive Ctl (K : Type) where
  /-- the point is not kept, next try with another step -/
  | redo (step : K)
  /-- the point is kept, next step -/
  | keep (step : K)

inductive Status (K : Type) (m : Nat) where
  | running (s : St K m)
  | halted (s : St K m)
  | raised (s : St K m)

/-- Settings: options, method, `use_step_control`, length of the buffer. -/
structure Cfg (K : Type) where
  o : OOpts K
  meth : Meth
  control : Bool
  len : Nat

/-- The starting point of the Newton solver, lines 335-338; `x0` of the analysis before the
first point. -/
def startX (c : Cfg K) (x0 : Fin m → K) (s : St K m) (f : Formula K m) : Fin m → K :=
  match if c.control then f.pred else none with
  | some p => p
  | none => s.x.getD x0

/-- One pass through the loop, lines 322-411 (no limit on the number of points). -/
noncomputable def pass (c : Cfg K) (n : Net K m) (x0 : Fin m → K) (s : St K m) (ctl : Ctl K) : Status K m :=
  match formula c.meth c.control s.iter s.buf s.tstep with
  | .error _ => .raised s
  | .ok f =>
    match dcSolve c.o (n.at f (s.time + s.tstep)) n.gmin (some (startX c x0 s f)) with
    | .solved x1 =>
      match ctl with
      | .redo h => .running { s with tstep := h }
      | .keep h =>
        let e : Entry K m := ⟨s.time + s.tstep, x1, some (f.c1 • x1 + f.c0)⟩
        .running { time := s.time + s.tstep, tstep := h, iter := s.iter + 1, x := some x1
                   buf := (e :: s.buf).take c.len, points := s.points ++ [e] }
    | .failed =>
      if c.control then
        match ctl with
        | .redo h => .running { s with tstep := h }
        | .keep h => .running { s with tstep := h }
      else .halted s
    | _ => .raised s

/-- The state before the loop, lines 260-321. -/
def start (c : Cfg K) (tstart step : K) (x0 : Fin m → K) : St K m :=
  { time := tstart, tstep := step, iter := 0, x := none, buf := [⟨tstart, x0, none⟩].take c.len, points := [] }

/-- The loop for a list of decisions. -/
noncomputable def run (c : Cfg K) (n : Net K m) (x0 : Fin m → K) : List (Ctl K) → St K m → Status K m
  | [], s => .running s
  | a :: r, s => match pass c n x0 s a with
    | .running s' => run c n x0 r s'
    | other => other

/-- The state in a status. -/
def Status.st : Status K m → St K m
  | .running s | .halted s | .raised s => s

end

/-! ### step control (lines 308-313, 351-377) -/

/-- the options used: `vea`, `ver`, `iea`, `ier` -/
structure ErrOpts where
  vea : ℝ
  ver : ℝ
  iea : ℝ
  ier : ℝ

/-- `aerror`, lines 308-310: `vea` is used for the currents as well -/
def aerror (o : ErrOpts) (nn : Nat) (i : Nat) : ℝ := if i < nn then o.vea else o.vea

/-- `rerror`, lines 311-313 -/
def rerror (o : ErrOpts) (nn : Nat) (i : Nat) : ℝ := if i < nn then o.ver else o.ier

/-- `df.order` -/
def Meth.order : Meth → Nat
  | .euler => 1
  | .trap => 2
  | .gear n => n

/-- the values `new_value` of lines 357-361: `x` is the previous point, `lte` the local error -/
noncomputable def factors {m : Nat} (o : ErrOpts) (nn order : Nat) (x lte : Fin m → ℝ) : List ℝ :=
  (List.finRange m).filterMap fun i =>
    if lte i ≠ 0 then
      some (((aerror o nn i + rerror o nn i * |x i|) / lte i) ^ (1 / ((order : ℝ) + 1)))
    else none

/-- whether the point is kept, lines 367-374 with a posteriori control -/
def keeps {m : Nat} (o : ErrOpts) (thr : ℝ) (nn order : Nat) (x lte : Fin m → ℝ) : Prop :=
  ¬ Transient.stepCoeff (factors o nn order x lte) < thr

end Verif.Tran
