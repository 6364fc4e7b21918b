import Verif.Model.Mosq

/-!
Model of the operating point information of the square-law MOS transistor: `update_status_dictionary`
(mosq.py:245-272), the effect of `gstamp` on the status dictionary (mosq.py:382-386) and what `get_op_info`
(mosq.py:312-337) shows.

`opdict['state']` is first a triple of NaN, then the three port voltages, or a single number: `gstamp` is called with
the three voltages, and takes its first argument, `ports_v[0]`, for all of them. Comparisons of the triple with a number
are broadcast by numpy.
-/

namespace Verif.Mosq
open Real

/-- `opdict['state']` -/
inductive Seen where
  | nan
  | one (v : ℝ)
  | three (vds vgs vbs : ℝ)

/-- `(state == ports).all()` -/
def Seen.same : Seen → ℝ × ℝ × ℝ → Prop
  | .nan, _ => False
  | .one v, p => v = p.1 ∧ v = p.2.1 ∧ v = p.2.2
  | .three a b c, p => a = p.1 ∧ b = p.2.1 ∧ c = p.2.2

/-- `(state != v).any()` -/
def Seen.differs : Seen → ℝ → Prop
  | .nan, _ => True
  | .one w, v => w ≠ v
  | .three a b c, v => a ≠ v ∨ b ≠ v ∨ c ≠ v

/-- The entries 'Ids', 'VTH', 'ON', 'beta', 'VOD', 'SAT'. -/
structure Rest where
  Ids : ℝ
  VTH : ℝ
  ON : Prop
  beta : ℝ
  VOD : ℝ
  SAT : Prop

/-- `opdict`: `g` are the entries 'gmd', 'gm', 'gmb', once there; `rest` the others. -/
structure Status where
  seen : Seen
  g : Option (ℝ × ℝ × ℝ)
  rest : Option Rest

/-- The dictionary of a new device. -/
def Status.new : Status := ⟨.nan, none, none⟩

/-- The three conductances of `gstamp`. -/
noncomputable def MQ.gOf (m : MQ) (gmin : ℝ) (p : ℝ × ℝ × ℝ) : ℝ × ℝ × ℝ :=
  (m.gstamp gmin p.1 p.2.1 p.2.2 .d .d, m.gstamp gmin p.1 p.2.1 p.2.2 .d .g, m.gstamp gmin p.1 p.2.1 p.2.2 .d .b)

/-- The other entries, mosq.py:263-269. -/
noncomputable def MQ.restOf (m : MQ) (p : ℝ × ℝ × ℝ) : Rest :=
  { Ids := m.drain p.1 p.2.1 p.2.2
    VTH := m.vt p.2.2
    ON := p.2.1 ≥ m.vt p.2.2
    beta := 0.5 * m.KP * m.W / m.L
    VOD := m.NPMOS * (p.2.1 - m.vt p.2.2)
    SAT := p.1 > p.2.1 - m.vt p.2.2 }

open Classical in
/-- `gstamp`, lines 382-386. -/
noncomputable def Status.gstamp (m : MQ) (gmin : ℝ) (s : Status) (p : ℝ × ℝ × ℝ) : Status :=
  let s1 : Status := if s.seen.differs p.1 then ⟨.one p.1, none, none⟩ else s
  { s1 with g := some (m.gOf gmin p) }

open Classical in
/-- `update_status_dictionary`. -/
noncomputable def Status.update (m : MQ) (gmin : ℝ) (s : Status) (p : ℝ × ℝ × ℝ) : Status :=
  if ¬ s.seen.same p ∨ s.g.isNone ∨ s.rest.isNone then
    let s1 := Status.gstamp m gmin { s with seen := .three p.1 p.2.1 p.2.2 } p
    { s1 with g := some (m.gOf gmin p), rest := some (m.restOf p) }
  else s

/-- Calls on a device: evaluations by the solver, and requests of operating point information. -/
inductive Use where
  | solve (p : ℝ × ℝ × ℝ)
  | info (p : ℝ × ℝ × ℝ)

noncomputable def Status.use (m : MQ) (gmin : ℝ) (s : Status) : Use → Status
  | .solve p => s.gstamp m gmin p
  | .info p => s.update m gmin p

end Verif.Mosq
