import Mathlib.Analysis.SpecialFunctions.Pow.Real
import Mathlib.Analysis.SpecialFunctions.Sqrt

/-!
Model of the square-law MOS transistor (mosq.py): currents, transconductances, the exchange of drain
and source, the temperature and the conductance stamp.

Numbers are real numbers. Division by zero raises in the code and gives 0 here; the theorems that
need it assume a non-zero threshold. The Monte Carlo deviations `svt`, `skp` (get_svt_skp, lines 584-594)
are parameters, 0 without Monte Carlo key. Memoisation is left out (see `Memo`).
-/

namespace Verif.Mosq
open Real

structure MQ where
  NPMOS : ℝ
  VTO : ℝ
  KP : ℝ
  LAMBDA : ℝ
  GAMMA : ℝ
  PHI : ℝ
  svt : ℝ
  skp : ℝ
  W : ℝ
  L : ℝ
  M : ℝ
  N : ℝ
  iea : ℝ

/-- `vsqrt1`, `vsqrt2` (lines 601-602). -/
noncomputable def MQ.vsq1 (m : MQ) (vbs : ℝ) : ℝ := max (-vbs + 2 * m.PHI) 0
noncomputable def MQ.vsq2 (m : MQ) : ℝ := max (2 * m.PHI) 0

/-- `get_VT`, lines 596-606. -/
noncomputable def MQ.vt (m : MQ) (vbs : ℝ) : ℝ :=
  m.VTO + m.svt + m.GAMMA * (√(m.vsq1 vbs) - √m.vsq2)

/-- The current before the multipliers, lines 638-655. -/
noncomputable def MQ.ids0 (m : MQ) (vds vgs vbs : ℝ) : ℝ :=
  let VT := m.vt vbs
  if vgs < VT then m.iea * (vgs / VT + vds / VT) / 100
  else if vds < vgs - VT - 0.5 * m.LAMBDA * (VT - vgs) ^ 2 then
    (m.skp + 1) * m.KP * m.W / m.L * ((vgs - VT) * vds - 0.5 * vds ^ 2)
  else
    (m.skp + 1) * 0.5 * m.KP * m.W / m.L * (vgs - VT) ^ 2 *
      (1 + m.LAMBDA * (vds - vgs + VT + 0.25 * m.LAMBDA * (VT - vgs) ^ 2))

/-- `get_ids`, lines 608-659. -/
noncomputable def MQ.ids (m : MQ) (vds vgs vbs : ℝ) : ℝ := m.NPMOS * m.M / m.N * m.ids0 vds vgs vbs

/-- `get_gmd`, lines 715-756. -/
noncomputable def MQ.gmd (m : MQ) (vds vgs vbs : ℝ) : ℝ :=
  let VT := m.vt vbs
  let g := if vgs < VT then m.iea / VT / 100
    else if vds < vgs - VT - 0.5 * m.LAMBDA * (VT - vgs) ^ 2 then m.KP * m.W / m.L * (vgs - vds - VT)
    else 0.5 * m.KP * m.LAMBDA * m.W / m.L * (vgs - VT) ^ 2
  (1 + m.skp) * g * m.M / m.N

/-- `get_gm`, lines 759-803. -/
noncomputable def MQ.gm (m : MQ) (vds vgs vbs : ℝ) : ℝ :=
  let VT := m.vt vbs
  let s1 := √(m.vsq1 vbs)
  let s2 := √m.vsq2
  let g := if vgs < VT then m.iea / VT / 100
    else if vds < vgs - VT then m.KP * m.W / m.L * vds
    else -0.5 * m.KP * m.LAMBDA * m.W / m.L * (-m.GAMMA * (-s2 + s1) + vgs - m.VTO) ^ 2 +
      0.5 * m.KP * m.W / m.L * (m.LAMBDA * (m.GAMMA * (-s2 + s1) + vds - vgs + m.VTO) + 1) *
        (-2 * m.GAMMA * (-s2 + s1) + 2 * vgs - 2 * m.VTO)
  (1 + m.skp) * g * m.M / m.N

/-- `get_gmb`, lines 662-712. -/
noncomputable def MQ.gmb (m : MQ) (vds vgs vbs : ℝ) : ℝ :=
  let VT := m.vt vbs
  let s1 := √(m.vsq1 vbs)
  let s2 := √m.vsq2
  let g := if vgs < VT then 0
    else if vds < vgs - VT then
      if m.vsq1 vbs > 0 then m.KP * m.GAMMA * vds * m.W / (2 * m.L * s1) else 0
    else if m.vsq1 vbs > 0 then
      -0.25 * m.KP * m.GAMMA * m.LAMBDA * m.W * (-m.GAMMA * (-s2 + s1) + vgs - m.VTO) ^ 2 / (m.L * s1) +
      0.5 * m.KP * m.GAMMA * m.W * (m.LAMBDA * (m.GAMMA * (s2 + s1) + vds - vgs + m.VTO) + 1) *
        (-m.GAMMA * (s2 + s1) + vgs - m.VTO) / (m.L * s1)
    else 0
  m.NPMOS * (1 + m.skp) * g * m.M / m.N

/-- `get_voltages`, lines 552-582: voltages after the exchange of drain and source, and its sign. -/
noncomputable def MQ.voltages (m : MQ) (vds vgs vbs : ℝ) : (ℝ × ℝ × ℝ) × ℝ :=
  let d := vds * m.NPMOS
  let g := vgs * m.NPMOS
  let b := vbs * m.NPMOS
  if d < 0 then ((-d, g - d, b - d), -1) else ((d, g, b), 1)

/-- The current into the drain: first entry of `istamp`, lines 235-237. -/
noncomputable def MQ.drain (m : MQ) (vds vgs vbs : ℝ) : ℝ :=
  let r := m.voltages vds vgs vbs
  r.2 * m.ids r.1.1 r.1.2.1 r.1.2.2

/-- The second entry of `istamp`: the current into the source. -/
noncomputable def MQ.source (m : MQ) (vds vgs vbs : ℝ) : ℝ :=
  let r := m.voltages vds vgs vbs
  (-r.2) * m.ids r.1.1 r.1.2.1 r.1.2.2

/-- Terminals of the stamp. -/
inductive Term where
  | d | g | s | b
deriving DecidableEq, Repr

def Term.all : List Term := [.d, .g, .s, .b]

/-- `T1`, `T2`, lines 506-513. -/
def swapT (i j : Term) : ℝ :=
  match i, j with
  | .d, .s => 1
  | .g, .g => 1
  | .s, .d => 1
  | .b, .b => 1
  | _, _ => 0

/-- `gstamp` before the reduction, lines 363-381. The products with `T1`, `T2` are products of numpy
arrays, hence entry by entry. -/
noncomputable def MQ.gstamp (m : MQ) (gmin vds vgs vbs : ℝ) (i j : Term) : ℝ :=
  let r := m.voltages vds vgs vbs
  let gmd := m.gmd r.1.1 r.1.2.1 r.1.2.2
  let gmg := m.gm r.1.1 r.1.2.1 r.1.2.2
  let gmb := m.gmb r.1.1 r.1.2.1 r.1.2.2
  let gmd := if gmd = 0 then gmin * 2 else gmd
  let gmg := if gmg = 0 then gmin * 2 else gmg
  let gmb := if gmb = 0 then -2 * gmin else gmb
  let e := match i, j with
    | .d, .d => gmd
    | .d, .g => gmg
    | .d, .s => -gmd - gmb - gmg
    | .d, .b => gmb
    | .s, .d => -gmd
    | .s, .g => -gmg
    | .s, .s => gmd + gmg + gmb
    | .s, .b => -gmb
    | _, _ => 0
  if r.2 = -1 then swapT i j * e * swapT i j else e

/-! ### Temperature -/

structure MT where
  TNOM : ℝ
  TEMP : ℝ
  VTO : ℝ
  KP : ℝ
  PHI : ℝ
  TCV : ℝ
  BEX : ℝ

/-- `set_device_temperature`, lines 515-525; the same text is in ekv.py, lines 444-454. `vth`:
`constants.Vth(TNOM)`, `eg`: `constants.si.Eg`. -/
noncomputable def MT.setT (vth : ℝ) (eg : ℝ → ℝ) (m : MT) (t : ℝ) : MT :=
  { m with
    TEMP := t
    VTO := m.VTO - m.TCV * (t - m.TNOM)
    KP := m.KP * (t / m.TNOM) ^ m.BEX
    PHI := m.PHI * t / m.TNOM + 3 * vth * log (t / m.TNOM) - eg m.TNOM * t / m.TNOM + eg t }

end Verif.Mosq
