import Verif.Model.Mosq
import Verif.Model.Consts
import Mathlib.Algebra.Order.Floor.Defs
import Mathlib.Algebra.Order.Round

/-!
Model of the constructors of the transistor models, `mosq_mos_model.__init__` (mosq.py:432-513) and
`ekv_mos_model.__init__` (ekv.py:369-442), with `_self_check` (mosq.py:805-820, ekv.py:796-807), and of the constructors of the
transistors, `mosq_device.__init__` (mosq.py:79-137) and `ekv_device.__init__` (ekv.py:140-171), with
`device_check` (mosq.py:822-834, ekv.py:809-821).

Numbers are real numbers, the arguments are numbers or absent. A reference temperature `TNOM` that is not positive raises an exception
of one kind or another in every case (ZeroDivisionError at `T / self.TNOM`, or ValueError in
`math.log(T / self.TNOM)` at the latest); here it is refused at once. The temperature `constants.T` of the program is taken to be
positive. Names and warnings are left out. The types and thresholds are also in `Verif.Model.Ekv` (C91).
-/

namespace Verif.MosCtor
open Real

/-- The exceptions: ValueError for an unknown type, TypeError for an absent argument in a sum, ValueError of `math.sqrt` and
`math.log`, ZeroDivisionError, and the one of the checks with the name of the parameter. -/
inductive CErr where
  | unknown
  | type
  | domain
  | zeroDiv
  | range (s : String)
deriving DecidableEq, Repr

inductive Kind where
  | mosq
  | ekv
deriving DecidableEq, Repr

/-- the arguments -/
structure Args where
  TYPE : String
  TNOM : Option ℝ := none
  COX : Option ℝ := none
  GAMMA : Option ℝ := none
  NSUB : Option ℝ := none
  PHI : Option ℝ := none
  VTO : Option ℝ := none
  KP : Option ℝ := none
  LAMBDA : Option ℝ := none
  AKP : Option ℝ := none
  AVT : Option ℝ := none
  TOX : Option ℝ := none
  VFB : Option ℝ := none
  U0 : Option ℝ := none
  TCV : Option ℝ := none
  BEX : Option ℝ := none

/-- the attributes -/
structure Model where
  NPMOS : ℝ
  COX : ℝ
  GAMMA : ℝ
  NSUB : Option ℝ
  U0 : Option ℝ
  LAMBDA : ℝ
  AVT : ℝ
  AKP : ℝ
  /-- those that depend on the temperature -/
  th : Mosq.MT

/-- the constants of `constants.py`: temperature, permittivities of oxide and silicon, charge, carrier density and energy gap of silicon -/
structure Phys where
  T : ℝ
  eox : ℝ
  esi : ℝ
  q : ℝ
  vth : ℝ → ℝ
  ni : ℝ → ℝ
  eg : ℝ → ℝ

/-- `TYPE`, mosq.py:440-445 and ekv.py:378 -/
def typeOf : Kind → String → Except CErr ℝ
  | .mosq, t => if t = "n" ∨ t = "N" then .ok 1 else if t = "p" ∨ t = "P" then .ok (-1) else .error .unknown
  | .ekv, t => .ok (if t = "n" then 1 else -1)

/-- `COX`, mosq.py:454-459 and ekv.py:387-392 -/
noncomputable def coxOf (p : Phys) (a : Args) : Except CErr ℝ :=
  match a.COX, a.TOX with
  | some c, _ => .ok c
  | none, some t => if t = 0 then .error .zeroDiv else .ok (p.eox / t)
  | none, none => .ok (7 / 10000)

/-- `math.sqrt` -/
noncomputable def pySqrt (x : ℝ) : Except CErr ℝ := if x < 0 then .error .domain else .ok √x

/-- `math.log` -/
noncomputable def pyLog (x : ℝ) : Except CErr ℝ := if 0 < x then .ok (log x) else .error .domain

/-- `GAMMA`, mosq.py:461-467 and ekv.py:394-400 -/
noncomputable def gammaOf (p : Phys) (a : Args) (cox : ℝ) : Except CErr ℝ :=
  match a.GAMMA, a.NSUB with
  | some g, _ => .ok g
  | none, some n => if cox = 0 then .error .zeroDiv else pySqrt (2 * p.q * p.esi * n * 10 ^ 6 / cox)
  | none, none => .ok 1

/-- `PHI`, mosq.py:468-474 and ekv.py:401-407 -/
noncomputable def phiOf (p : Phys) (a : Args) (tnom : ℝ) : Except CErr ℝ :=
  match a.PHI, a.NSUB with
  | some v, _ => .ok v
  | none, some n => match pyLog (n * 10 ^ 6 / p.ni tnom) with
    | .error x => .error x
    | .ok l => .ok (2 * p.vth tnom * l)
  | none, none => .ok (7 / 10)

/-- `VTO`, mosq.py:475-482 and ekv.py:408-416: the arguments `PHI` and `GAMMA` are added to `VFB`, not the attributes -/
noncomputable def vtoOf (k : Kind) (a : Args) (np : ℝ) : Except CErr ℝ :=
  match a.VTO, a.VFB, a.PHI, a.GAMMA with
  | some v, _, _, _ => .ok (np * v)
  | none, some f, some v, some g => .ok (f + v + g * v)
  | none, some _, _, _ => .error .type
  | none, none, _, _ => .ok (match k with | .mosq => 1 / 2 | .ekv => np * (1 / 2))

/-- `KP`, mosq.py:484-489 and ekv.py:418-423 -/
noncomputable def kpOf (a : Args) (cox : ℝ) : ℝ :=
  match a.KP, a.U0 with
  | some k, _ => k
  | none, some u => u / 10 ^ 4 * cox
  | none, none => 5 / 10 ^ 5

/-- `_self_check` -/
noncomputable def selfCheck (k : Kind) (m : Model) : Option String :=
  if ∃ n ∈ m.NSUB, n < 0 then some "NSUB"
  else if ∃ u ∈ m.U0, ¬ 0 < u then some "UO"
  else if ¬ 0 < m.GAMMA then some "GAMMA"
  else if ¬ 1 / 10 < m.th.PHI then some "PHI"
  else match k with
    | .ekv => none
    | .mosq => if m.AVT < 0 then some "AVT" else if m.AKP < 0 then some "AKP" else none

/-- the end of the constructor: the check of the model -/
noncomputable def checked (k : Kind) (m : Model) : Except CErr Model :=
  match selfCheck k m with
  | some s => .error (.range s)
  | none => .ok m

/-- The constructor of a transistor model. -/
noncomputable def modelCtor (k : Kind) (p : Phys) (a : Args) : Except CErr Model := do
  let tnom := a.TNOM.getD Consts.Tref
  let np ← typeOf k a.TYPE
  if tnom ≤ 0 then .error .domain
  let cox ← coxOf p a
  let gamma ← gammaOf p a cox
  let phi ← phiOf p a tnom
  let vto ← vtoOf k a np
  let t : Mosq.MT :=
    { TNOM := tnom, TEMP := tnom, VTO := vto, KP := kpOf a cox, PHI := phi, TCV := np * a.TCV.getD (1 / 1000),
      BEX := a.BEX.getD (-3 / 2) }
  checked k
    { NPMOS := np, COX := cox, GAMMA := gamma, NSUB := a.NSUB, U0 := a.U0, LAMBDA := a.LAMBDA.getD (1 / 2),
      AVT := a.AVT.getD (71 / 10 ^ 10), AKP := a.AKP.getD (18 / 10 ^ 9), th := t.setT (p.vth tnom) p.eg p.T }

/-- `set_device_temperature` of a model -/
noncomputable def Model.setT (p : Phys) (m : Model) (t : ℝ) : Model :=
  { m with th := m.th.setT (p.vth m.th.TNOM) p.eg t }

/-- `int(x)` -/
noncomputable def pyInt (x : ℝ) : ℤ := if 0 ≤ x then ⌊x⌋ else ⌈x⌉

/-- the device parameters -/
structure Dev where
  L : ℝ
  W : ℝ
  M : ℤ
  N : ℤ

/-- `device_check` -/
noncomputable def deviceCheck (d : Dev) : Option String :=
  if ¬ 0 < d.L then some "L" else if ¬ 0 < d.W then some "W" else if ¬ 0 < d.N then some "N"
  else if ¬ 0 < d.M then some "M" else none

/-- `get_ip_abs_err`, ekv.py:504-507, called before the check; `iea` is an option -/
noncomputable def ipAbsErr (p : Phys) (iea : ℝ) (m : Model) (d : Dev) : Except CErr ℝ :=
  if d.L = 0 then .error .zeroDiv
  else if 2 * p.vth m.th.TEMP ^ 2 * m.th.KP * d.M * d.W / d.L = 0 then .error .zeroDiv
  else .ok (iea / (2 * p.vth m.th.TEMP ^ 2 * m.th.KP * d.M * d.W / d.L))

/-- the end of the constructor of a transistor -/
noncomputable def devChecked (d : Dev) : Except CErr Dev :=
  match deviceCheck d with
  | some s => .error (.range s)
  | none => .ok d

/-- The constructors of the transistors. -/
noncomputable def deviceCtor (k : Kind) (p : Phys) (iea : ℝ) (m : Model) (w l mult n : ℝ) : Except CErr Dev :=
  let d : Dev := { L := l, W := w, M := pyInt mult, N := pyInt n }
  match k with
  | .mosq => devChecked d
  | .ekv => match ipAbsErr p iea m d with
    | .error x => .error x
    | .ok _ => devChecked d

end Verif.MosCtor
