import Mathlib.Analysis.SpecialFunctions.Pow.Real
import Mathlib.Analysis.SpecialFunctions.Sqrt
import Mathlib.Analysis.SpecialFunctions.Log.Basic

/-!
Model of the EKV transistor (ekv.py) and of the constructors of both MOS models (ekv.py:366-442,
mosq.py:425-513).

Numbers are real numbers. The function solved by Newton's method in `get_ismall` is modelled; its
result is a parameter `ism` of the current, assumed exact by the theorems that need it.
-/

namespace Verif.Ekv
open Real

/-- `utilities.EPS`, a positive constant. -/
structure Eps where
  eps : ℝ
  pos : 0 < eps

/-- `ismall2qsmall`, lines 781-788. -/
noncomputable def i2q (i : ℝ) : ℝ := √(0.25 + max 0 i) - 0.5

/-- `qsmall2ismall`, lines 790-794. -/
def q2i (q : ℝ) : ℝ := q ^ 2 + q

/-- The formula of `get_vsmall` and `_vsmall_obj`. -/
noncomputable def vOf (i : ℝ) : ℝ := log (√(0.25 + i) - 0.5) + 2 * √(0.25 + i) - 1

/-- `get_vsmall`, lines 754-765. -/
noncomputable def vsmall (e : Eps) (i : ℝ) : ℝ := vOf (if |i| < e.eps then e.eps else i)

/-- `_vsmall_obj`, lines 728-737. -/
noncomputable def obj (v x : ℝ) : ℝ := if x > 0 then vOf x - v else x - v

/-- `_vsmall_obj_prime`, lines 738-747. -/
noncomputable def objPrime (e : Eps) (x : ℝ) : ℝ :=
  let x := if x < e.eps then 10 * e.eps else x
  0.5 / (√(0.25 + x) - 0.5) / √(0.25 + x) + 1 / √(0.25 + x)

/-- `_vsmall_obj_prime2`, lines 749-752. -/
noncomputable def objPrime2 (e : Eps) (x : ℝ) : ℝ :=
  let x := if x < e.eps then 10 * e.eps else x
  (-1) / (4 * (x + 0.25) * (√(x + 0.25) - 0.5) ^ 2) - 1 / (2 * (x + 0.25) ^ (3 / 2 : ℝ)) -
    1 / (4 * (x + 0.25) ^ (3 / 2 : ℝ) * (√(x + 0.25) - 0.5))

/-- Parameters of the model and the device. `Vth`: `constants.Vth()`, `Lc`: line 653. -/
structure EM where
  NPMOS : ℝ
  VTO : ℝ
  GAMMA : ℝ
  PHI : ℝ
  KP : ℝ
  LAMBDA : ℝ
  UCRIT : ℝ
  Lc : ℝ
  Vth : ℝ
  W : ℝ
  L : ℝ
  M : ℝ
  N : ℝ

/-- `get_voltages`, lines 481-502. -/
noncomputable def EM.voltages (m : EM) (vd vg vs : ℝ) : (ℝ × ℝ × ℝ) × ℝ :=
  let d := vd * m.NPMOS
  let g := vg * m.NPMOS
  let s := vs * m.NPMOS
  if s > d then ((s, g, d), -1) else ((d, g, s), 1)

/-- `get_vp_nv_nq`, lines 524-545. -/
noncomputable def EM.vp (m : EM) (vg : ℝ) : ℝ :=
  let t := √m.PHI + m.GAMMA / 2
  if vg - m.VTO + m.PHI + m.GAMMA * √m.PHI > 0 ∧ vg - m.VTO + t ^ 2 > 0 then
    vg - m.VTO - m.GAMMA * (√(vg - m.VTO + t ^ 2) - t)
  else -m.PHI

noncomputable def EM.nq (m : EM) (vg : ℝ) : ℝ := 1 + 0.5 * m.GAMMA / √(m.PHI + 0.5 * m.vp vg)
noncomputable def EM.nv (m : EM) (vg : ℝ) : ℝ := 1 + 0.5 * m.GAMMA / √(m.PHI + m.vp vg + 1 / 10 ^ 12)

/-- `setup_scaling`, lines 509-522: specific current and specific transconductance. -/
noncomputable def EM.spec (m : EM) (vg : ℝ) : ℝ := 2 * m.nq vg * m.Vth ^ 2 * m.KP * m.W / m.L
noncomputable def EM.gspec (m : EM) (vg : ℝ) : ℝ := 2 * m.nq vg * m.Vth * m.KP * m.W / m.L

/-- `get_leq_virp`, lines 629-670: equivalent length and reverse voltage, for scaled voltages. -/
noncomputable def EM.leqVirp (m : EM) (vd vs vp ifn : ℝ) : ℝ × ℝ :=
  let vc := m.UCRIT * m.N * m.L
  let vdss := vc * (√(0.25 + m.Vth / vc * √ifn) - 0.5)
  let vdssp := vc * (√(0.25 + m.Vth / vc * (√ifn - 0.75 * log ifn)) - 0.5) +
    m.Vth * (log (0.5 * vc / m.Vth) - 0.6)
  let vser := √ifn - vdss / m.Vth
  let vds := (vd - vs) * 0.5 * m.Vth
  let dv := 4 * m.Vth * √(m.LAMBDA * vser + 1 / 64)
  let vip := √(vdss ^ 2 + dv ^ 2) - √((vds - vdss) ^ 2 + dv ^ 2)
  let dl := m.LAMBDA * m.Lc * log (1 + (vds - vip) / (m.Lc * m.UCRIT))
  let lp := m.N * m.L - dl + (vds + vip) / m.UCRIT
  let lmin := m.N * m.L / 10
  let leq := 0.5 * (lp + √(lp ^ 2 + lmin ^ 2))
  (leq, (vp - vds - vs * m.Vth - √(vdssp ^ 2 + dv ^ 2) + √((vds - vdssp) ^ 2 + dv ^ 2)) / m.Vth)

/-- Normalised forward and reverse current and equivalent length for the voltages after the exchange.
`ism`: result of `get_ismall`. -/
noncomputable def EM.norm (m : EM) (ism : ℝ → ℝ) (v : ℝ × ℝ × ℝ) : ℝ × ℝ × ℝ :=
  let vp := m.vp v.2.1
  let vs := v.2.2 / m.Vth
  let vd := v.1 / m.Vth
  let ifn := ism (vp / m.Vth - vs)
  let r := m.leqVirp vd vs vp ifn
  (ifn, ism r.2, r.1)

/-- `get_ids`, lines 547-627. -/
noncomputable def EM.ids (m : EM) (ism : ℝ → ℝ) (vd vg vs : ℝ) : ℝ :=
  let r := m.voltages vd vg vs
  let n := m.norm ism r.1
  r.2 * m.NPMOS * m.L / n.2.2 * m.M * m.spec r.1.2.1 * (n.1 - n.2.1)

/-- `get_gms`, `get_gmd`, `get_gmg`, lines 672-701. -/
noncomputable def EM.gms (m : EM) (ism : ℝ → ℝ) (vd vg vs : ℝ) : ℝ :=
  let r := m.voltages vd vg vs
  let n := m.norm ism r.1
  if r.2 = 1 then -1 * m.gspec r.1.2.1 * i2q n.1 else (-m.gspec r.1.2.1) * i2q n.2.1

noncomputable def EM.gmd (m : EM) (ism : ℝ → ℝ) (vd vg vs : ℝ) : ℝ :=
  let r := m.voltages vd vg vs
  let n := m.norm ism r.1
  if r.2 = 1 then m.gspec r.1.2.1 * i2q n.2.1 else m.gspec r.1.2.1 * i2q n.1

noncomputable def EM.gmg (m : EM) (ism : ℝ → ℝ) (vd vg vs : ℝ) : ℝ :=
  let r := m.voltages vd vg vs
  let n := m.norm ism r.1
  r.2 * m.gspec r.1.2.1 * (i2q n.1 - i2q n.2.1) / m.nv vg

/-! ### Constructors -/

/-- The arguments of a MOS model that matter for its type and threshold; `none` for an absent one. -/
structure Args where
  TYPE : String
  VTO : Option ℚ := none
  VFB : Option ℚ := none
  PHI : Option ℚ := none
  GAMMA : Option ℚ := none
  TCV : Option ℚ := none
deriving DecidableEq, Repr

inductive CtorErr
  | unknownType
  | typeError
deriving DecidableEq, Repr

/-- The attributes set from them, before the temperature is set. -/
structure Attrs where
  NPMOS : ℚ
  VTO : ℚ
  TCV : ℚ
deriving DecidableEq, Repr

def vtoDefault : ℚ := 1 / 2
def tcvDefault : ℚ := 1 / 1000

/-- `VFB + PHI + GAMMA * PHI`, from the arguments; an absent one is None: TypeError. -/
def vtoFromVfb (a : Args) (vfb : ℚ) : Except CtorErr ℚ :=
  match a.PHI, a.GAMMA with
  | some p, some g => .ok (vfb + p + g * p)
  | _, _ => .error .typeError

/-- `mosq_mos_model.__init__`. -/
def mosqCtor (a : Args) : Except CtorErr Attrs := do
  let np ← if a.TYPE = "n" ∨ a.TYPE = "N" then .ok (1 : ℚ)
    else if a.TYPE = "p" ∨ a.TYPE = "P" then .ok (-1) else .error .unknownType
  let vto ← match a.VTO, a.VFB with
    | some v, _ => .ok (np * v)
    | none, some f => vtoFromVfb a f
    | none, none => .ok vtoDefault
  return { NPMOS := np, VTO := vto, TCV := match a.TCV with
    | some t => np * t
    | none => np * tcvDefault }

/-- `ekv_mos_model.__init__`. -/
def ekvCtor (a : Args) : Except CtorErr Attrs := do
  let np : ℚ := if a.TYPE = "n" then 1 else -1
  let vto ← match a.VTO, a.VFB with
    | some v, _ => .ok (np * v)
    | none, some f => vtoFromVfb a f
    | none, none => .ok (np * vtoDefault)
  return { NPMOS := np, VTO := vto, TCV := match a.TCV with
    | some t => np * t
    | none => np * tcvDefault }

end Verif.Ekv
