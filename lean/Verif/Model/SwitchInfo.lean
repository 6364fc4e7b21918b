import Verif.Model.Switch

/-!
Model of the operating point information of switches (switch.py:81-118, 154-223, 331-366) with the
attributes that `vswitch_model` overwrites while it evaluates: `V` and `is_on` belong to the model,
which is shared by all switches that name it, `dev.is_on` and the dictionary belong to one switch.
The voltages before the first call are `nan`, equal to no others: `none`. Numbers are real numbers.
-/

namespace Verif.SwitchInfo
open Verif.Switch

/-- the attributes of a `vswitch_model` that change -/
structure Shared where
  V : ℝ
  isOn : Bool

/-- what `opdict` holds after an update -/
structure Entry where
  vo : ℝ
  vs : ℝ
  R : ℝ
  I : ℝ
  status : Bool

structure Dev where
  isOn : Bool
  op : Option Entry

/-- `switch_device.__init__`, lines 107-116 -/
def Dev.init (ic : Option Bool) : Dev := ⟨ic.getD false, none⟩

/-- `get_dc_guess`, line 365: the guess for the control port and, the same, for the output port -/
noncomputable def guess (p : Sw) (on : Bool) : ℝ := p.VT * (9 / 10 + (if on then 1 else 0) * (2 / 10))

open Classical in
/-- `_update_status`, lines 342-360 -/
noncomputable def updateStatus (p : Sw) (th : ℝ → ℝ) (vin : ℝ) (on : Bool) : Shared × Bool :=
  let r1 := p.R th on vin
  let r2 := p.R th (!on) vin
  let V := p.V on
  let s := if vin > V ∧ on = false ∧ r1 - r2 = 0 then (p.V true, true) else (V, on)
  let s := if vin < s.1 ∧ s.2 = true ∧ r1 - r2 = 0 then (p.V false, false) else s
  (⟨s.1, s.2⟩, s.2)

/-- the resistance at the voltage `self.V` that was just set -/
noncomputable def rAt (p : Sw) (th : ℝ → ℝ) (vin : ℝ) (m : Shared) : ℝ := p.A * th ((vin - m.V) * slope) + p.B

/-- `get_i`, lines 378-384 -/
noncomputable def getI (p : Sw) (th : ℝ → ℝ) (vout vin : ℝ) (on : Bool) : ℝ × Shared × Bool :=
  let s := updateStatus p th vin on
  (vout / rAt p th vin s.1, s)

/-- `get_go`, lines 386-391 -/
noncomputable def getGo (p : Sw) (th : ℝ → ℝ) (vin : ℝ) (on : Bool) : ℝ × Shared × Bool :=
  let s := updateStatus p th vin on
  (1 / rAt p th vin s.1, s)

/-- `get_gm`, lines 393-399 -/
noncomputable def getGm (p : Sw) (th : ℝ → ℝ) (gmin : ℝ) (vin : ℝ) (on : Bool) : ℝ × Shared × Bool :=
  let s := updateStatus p th vin on
  let V := s.1.V
  (p.A * slope * (th (slope * (V - vin)) ^ 2 - 1) / (p.A * th (slope * (V - vin)) - p.B) ^ 2 + gmin, s)

open Classical in
/-- `update_status_dictionary`, lines 182-198 -/
noncomputable def info (p : Sw) (th : ℝ → ℝ) (vout vin : ℝ) (m : Shared) (d : Dev) : Shared × Dev :=
  if d.op.any (fun e => decide (e.vo = vout ∧ e.vs = vin)) then (m, d)
  else
    let g := getGo p th vin d.isOn
    let i := getI p th vout vin g.2.2
    (i.2.1, ⟨i.2.2, some ⟨vout, vin, 1 / g.1, i.1, i.2.2⟩⟩)

/-- what is asked of one of the switches that share a model -/
inductive Ask where
  | i (k : Nat) (vout vin : ℝ)
  | go (k : Nat) (vout vin : ℝ)
  | gm (k : Nat) (vout vin : ℝ)
  | info (k : Nat) (vout vin : ℝ)

def Ask.who : Ask → Nat
  | .i k .. => k
  | .go k .. => k
  | .gm k .. => k
  | .info k .. => k

/-- the answer: a number or the dictionary -/
inductive Ans where
  | num (x : ℝ)
  | dict (e : Option Entry)

structure World where
  shared : Shared
  devs : Nat → Dev

open Classical in
noncomputable def World.set (w : World) (k : Nat) (m : Shared) (d : Dev) : World :=
  ⟨m, fun j => if j = k then d else w.devs j⟩

noncomputable def ask (p : Sw) (th : ℝ → ℝ) (gmin : ℝ) (w : World) : Ask → World × Ans
  | .i k vout vin => let r := getI p th vout vin (w.devs k).isOn
    (w.set k r.2.1 { w.devs k with isOn := r.2.2 }, .num r.1)
  | .go k _ vin => let r := getGo p th vin (w.devs k).isOn
    (w.set k r.2.1 { w.devs k with isOn := r.2.2 }, .num r.1)
  | .gm k _ vin => let r := getGm p th gmin vin (w.devs k).isOn
    (w.set k r.2.1 { w.devs k with isOn := r.2.2 }, .num r.1)
  | .info k vout vin => let r := info p th vout vin w.shared (w.devs k)
    (w.set k r.1 r.2, .dict r.2.op)

/-- a sequence of questions with their answers -/
noncomputable def run (p : Sw) (th : ℝ → ℝ) (gmin : ℝ) : World → List Ask → World × List (Nat × Ans)
  | w, [] => (w, [])
  | w, a :: r => let s := ask p th gmin w a
    let t := run p th gmin s.1 r
    (t.1, (a.who, s.2) :: t.2)

end Verif.SwitchInfo
