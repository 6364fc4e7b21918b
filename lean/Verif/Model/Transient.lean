import Mathlib.Algebra.Order.Field.Basic

/-!
Model of the time loop of `transient.transient_analysis` (transient.py:316-416) and of
`check_step` (transient.py:430-470).

Each attempt at a time point has an outcome chosen by an adversary: Newton fails, or it
converges; if it converges the local error may or may not be available, and if it is, it
gives a list of step factors (`new_value`, line 357; components with zero error give none).
Not modelled here: the differentiation formulas (see `Model.DF`) and the printing. An
analysis is driven by the list of its outcomes.
-/

namespace Verif.Transient

variable {K : Type} [Field K] [LinearOrder K]

structure Cfg (K : Type) where
  tstart : K
  tstop : K
  /-- argument `tstep`: `HMAX` -/
  hmax : K
  hmin : K
  /-- `options.transient_aposteriori_step_threshold` -/
  thr : K
  /-- `use_step_control` -/
  control : Bool
  /-- `options.transient_use_aposteriori_step_control` -/
  apost : Bool
  /-- `options.transient_max_time_iter` (0: no limit) -/
  maxIter : Nat

inductive Outcome (K : Type) where
  | fails
  | ok (factors : Option (List K))

/-- Loop variables, the times recorded by `sol.add_line` and the steps tried so far (both
oldest first). -/
structure St (K : Type) where
  time : K
  tstep : K
  iter : Nat
  times : List K
  tried : List K

inductive Status (K : Type) where
  | running (s : St K)
  | finished (s : St K)
  | raised (s : St K)     -- `ValueError` of `check_step`
  | halted (s : St K)     -- `break`, the analysis returns `None`

/-- `check_step`, lines 462-470 (`none`: `ValueError`). -/
def checkStep (c : Cfg K) (tstep time : K) : Option K :=
  let h := if tstep > c.hmax then c.hmax else tstep
  if c.tstop - time < h then some (c.tstop - time)
  else if h < c.hmin then none
  else some h

/-- `new_step_coeff`, lines 353-360. -/
def stepCoeff (factors : List K) : K :=
  factors.foldl (fun m v => if v < m then v else m) 2

/-- Lines 379-416 after a good point: record it; the iteration limit. -/
def accept (c : Cfg K) (s : St K) (newStep : K) : Status K :=
  let t := s.time + s.tstep
  let s' : St K := { s with time := t, tstep := newStep, iter := s.iter + 1,
                            times := s.times ++ [t] }
  if c.maxIter ≠ 0 ∧ s'.iter = c.maxIter then .halted s' else .running s'

/-- One pass through the loop body, lines 317-416. -/
def pass (c : Cfg K) (s0 : St K) (o : Outcome K) : Status K :=
  let s : St K := { s0 with tried := s0.tried ++ [s0.tstep] }
  match o with
  | .ok none => accept c s s.tstep
  | .ok (some f) =>
    if c.control then
      let k := stepCoeff f
      let new := s.tstep * k
      if c.apost ∧ k < c.thr then
        match checkStep c new s.time with
        | none => .raised s
        | some h => .running { s with tstep := h } -- `continue`
      else
        match checkStep c new s.time with
        | none => .raised s
        | some h => accept c s h
    else accept c s s.tstep
  | .fails =>
    if c.control then
      match checkStep c (s.tstep / 5) s.time with
      | none => .raised s
      | some h =>
        let s' := { s with tstep := h }
        if c.maxIter ≠ 0 ∧ s'.iter = c.maxIter then .halted s' else .running s'
    else .halted s

/-- Line 262-264: the first step. -/
def start (c : Cfg K) : St K :=
  { time := c.tstart
    tstep := if c.control then min ((c.tstop - c.tstart) / 9999) c.hmax else c.hmax
    iter := 0
    times := []
    tried := [] }

/-- The loop `while time < tstop`, for a list of outcomes. -/
def run (c : Cfg K) : List (Outcome K) → St K → Status K
  | os, s =>
    if s.time < c.tstop then
      match os with
      | [] => .running s
      | o :: rest =>
        match pass c s o with
        | .running s' => run c rest s'
        | other => other
    else .finished s
  termination_by os => os.length

/-- The state in a status. -/
def Status.st : Status K → St K
  | .running s | .finished s | .raised s | .halted s => s

end Verif.Transient
