import Mathlib.Algebra.Order.Floor.Ring
import Mathlib.Algebra.Field.Rat

/-!
Model of the command line, `__main__._cli` (__main__.py:32-158): how its options reach the
module `options`.

`OptionParser` itself is not modelled: `Cli` is what it returns (`none`: option not given and
its default is `None`). `float` is a parameter (`none`: `ValueError`).
-/

namespace Verif.Cli

variable {K : Type} [Field K] [LinearOrder K] [FloorRing K]

/-- `cli_options`; defaults as in lines 39-107. -/
structure Cli where
  dcGuess : String := "guess"
  method : Option String := some "trap"
  noStep : Bool := false
  vea : Option String := none
  ver : Option String := none
  iea : Option String := none
  ier : Option String := none
  hmin : Option String := none
  dcMax : Option String := none
  tranMax : Option String := none
  timeMax : Option String := none
  shootMax : Option String := none
  gmin : Option String := none
  cmin : Option String := none

/-- a value that is used as a truth value -/
inductive PyVal where
  | bool (b : Bool)
  | str (s : String)

/-- Python truth: a string is true unless empty -/
def PyVal.truthy : PyVal → Bool
  | .bool b => b
  | .str s => !s.isEmpty

/-- The options that can be set on the command line. -/
structure Options (K : Type) where
  vea : K
  ver : K
  iea : K
  ier : K
  hmin : K
  dcMax : Int
  tranMax : Int
  timeMax : Int
  shootMax : Int
  gmin : K
  cmin : K
  method : String
  noStep : Bool
  dcUseGuess : PyVal

/-- `int(x)`: towards zero -/
def toInt (x : K) : Int := if 0 ≤ x then ⌊x⌋ else ⌈x⌉

/-- `if cli_options.x is not None: options.x = float(cli_options.x)` -/
def setF (float : String → Option K) (s : Option String) (old : K) : Option K :=
  match s with
  | none => some old
  | some t => float t

/-- `options.x = int(float(cli_options.x))` -/
def setI (float : String → Option K) (s : Option String) (old : Int) : Option Int :=
  match s with
  | none => some old
  | some t => (float t).map toInt

/-- Lines 111-112. -/
def setMethod (c : Cli) (o : Options K) : Options K :=
  match c.method with
  | some m => { o with method := m.toUpper }
  | none => o

/-- Lines 110-151 (`none`: `ValueError`). -/
def applyCli (float : String → Option K) (c : Cli) (o : Options K) : Option (Options K) :=
  let o := setMethod c o
  (setF float c.vea o.vea).bind fun vea =>
  (setF float c.ver o.ver).bind fun ver =>
  (setF float c.iea o.iea).bind fun iea =>
  (setF float c.ier o.ier).bind fun ier =>
  (setF float c.hmin o.hmin).bind fun hmin =>
  (setI float c.dcMax o.dcMax).bind fun dcMax =>
  (setI float c.tranMax o.tranMax).bind fun tranMax =>
  (setI float c.timeMax o.timeMax).bind fun timeMax =>
  (setI float c.shootMax o.shootMax).bind fun shootMax =>
  (setF float c.gmin o.gmin).bind fun gmin =>
  (setF float c.cmin o.cmin).bind fun cmin =>
  some { o with vea := vea, ver := ver, iea := iea, ier := ier, hmin := hmin, dcMax := dcMax, tranMax := tranMax,
                timeMax := timeMax, shootMax := shootMax, gmin := gmin, cmin := cmin, noStep := c.noStep,
                dcUseGuess := .str c.dcGuess }

end Verif.Cli
