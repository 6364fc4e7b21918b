import Verif.Model.Tran

/-!
Model of the beginning of `transient.transient_analysis` (transient.py:121-299): the checks of its arguments, the choice of the
differentiation formula with `import_custom_df_module` (transient.py:650-667), the length of the buffer and the first step.

Sizes stand for the matrices that may be given. What is printed is left out. `sys.exit(n)` ends the program with status `n`.
`imp.find_module` is an oracle; `imp.load_module` wants four arguments and is called with one, so that every call raises, which
is caught.
-/

namespace Verif.TranFront
open Verif.Tran
open Verif.Circuit (Err)

variable {K : Type} [Field K] [LinearOrder K]

/-- the options that matter here -/
structure Opts where
  /-- `options.default_tran_method` -/
  method : String := "TRAP"
  /-- `options.transient_no_step_control` -/
  noControl : Bool := false

structure Args (K : Type) where
  tstart : K
  tstep : K
  tstop : K
  method : Option String
  control : Bool := true
  /-- numbers of rows of `mna` and `N`, when both are given -/
  given : Option (Nat × Nat) := none

/-- how the beginning ends -/
inductive Front (K : Type) where
  | exit (status : Nat)
  | raised (e : Err)
  | go (meth : Meth) (control : Bool) (len : Nat) (step : K)
deriving DecidableEq

/-- `import_custom_df_module`: `found` says whether there is a module of this name -/
def customDf (found : String → Bool) (name : String) : Option Meth :=
  -- find_module raises, or load_module does
  if found name.toLower then none else none

/-- the choice of the formula, lines 207-233 -/
def choose (found : String → Bool) (method : String) : Option Meth :=
  if method = "IMPLICIT_EULER" then some .euler
  else if method = "TRAP" then some .trap
  else if method = "GEAR1" then some (.gear 1)
  else if method = "GEAR2" then some (.gear 2)
  else if method = "GEAR3" then some (.gear 3)
  else if method = "GEAR4" then some (.gear 4)
  else if method = "GEAR5" then some (.gear 5)
  else if method = "GEAR6" then some (.gear 6)
  else customDf found method

/-- lines 121-293 -/
def front (found : String → Bool) (o : Opts) (a : Args K) : Front K :=
  let control := if o.noControl then false else a.control
  let method := match a.method with
    | some m => m.toUpper
    | none => o.method
  let hmax := a.tstep
  if a.tstart > a.tstop then .exit 1
  else if a.tstep < 0 then .exit 1
  else if ∃ p ∈ a.given, p.1 ≠ p.2 then .exit 0
  else match choose found method with
    | none => .exit 23
    | some mt => match bufferLen mt control with
      | .error e => .raised e
      | .ok len => .go mt control len (if control then min ((a.tstop - a.tstart) / 9999) hmax else a.tstep)

end Verif.TranFront
