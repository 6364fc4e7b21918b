import Verif.Model.Ekv

/-!
Model of the operating point information of the EKV transistor: what `get_ids` stores in the status dictionary
(ekv.py:547-627), the methods `i` (198-210) and `g` (310-347) of the device, `update_status_dictionary` (212-235) and
what `get_op_info` (237-308) shows.

`ism` stands for the result of `get_ismall`; that Newton's method starts from the currents 'ifn' and 'irn' of the last
evaluation is left out. `opdict['state']` is a tuple: it compares equal to a tuple with the same numbers, and to no list.
NaN, the first state, compares equal to nothing. The line `self.opdict['state'] == ports_v[0]` (221) is a comparison
without effect.
-/

namespace Verif.Ekv
open Real

/-- What `get_ids` stores besides 'state' and 'Ids'; `cox` is `COX` of the model, `SATLIM` is `exp 4`, `WMSI_factor`
is 10 (lines 437-439). -/
structure Info where
  Leff : ℝ
  Vp : ℝ
  ifn : ℝ
  irn : ℝ
  nv : ℝ
  nq : ℝ
  beta : ℝ
  Ispec : ℝ
  VTH : ℝ
  VOD : ℝ
  SAT : Prop
  qf : ℝ
  qr : ℝ
  WMSI : Nat

open Classical in
/-- Lines 606-621. -/
noncomputable def wmsi (ifn irn : ℝ) : Nat :=
  if max ifn irn > 10 then 2 else if max ifn irn < 1 / 10 then 0 else 1

/-- The entries for the voltages of drain, gate and source. -/
noncomputable def EM.info (m : EM) (cox : ℝ) (ism : ℝ → ℝ) (p : ℝ × ℝ × ℝ) : Info :=
  let r := (m.voltages p.1 p.2.1 p.2.2).1
  let n := m.norm ism r
  let qs := 2 * m.nq r.2.1 * m.Vth * cox
  { Leff := n.2.2
    Vp := m.vp r.2.1
    ifn := n.1
    irn := n.2.1
    nv := m.nv r.2.1
    nq := m.nq r.2.1
    beta := 0.5 * m.KP * m.W / n.2.2
    Ispec := m.spec r.2.1
    VTH := m.VTO
    VOD := m.NPMOS * m.nv r.2.1 * (m.vp r.2.1 - r.2.2)
    SAT := n.1 > n.2.1 * exp 4
    qf := i2q n.1 * qs
    qr := i2q n.2.1 * qs
    WMSI := wmsi n.1 n.2.1 }

/-- 'state': lines 598-602. The drain and source voltages are scaled, the gate voltage is not. -/
noncomputable def EM.stateOf (m : EM) (p : ℝ × ℝ × ℝ) : ℝ × ℝ × ℝ :=
  let r := m.voltages p.1 p.2.1 p.2.2
  let vd := r.1.1 / m.Vth
  let vs := r.1.2.2 / m.Vth
  ((if r.2 = 1 then vd else vs) * m.NPMOS, p.2.1 * m.NPMOS, (if r.2 = 1 then vs else vd) * m.NPMOS)

/-- The status dictionary; `none` for an entry that is not there. -/
structure Dict where
  state : Option (ℝ × ℝ × ℝ)
  Ids : Option ℝ
  gmd : Option ℝ
  gmg : Option ℝ
  gms : Option ℝ
  info : Option Info

/-- The dictionary of a new device, lines 150-157. -/
def Dict.new : Dict := ⟨none, none, none, none, none, none⟩

/-- `get_ids` -/
noncomputable def Dict.eval (m : EM) (cox : ℝ) (ism : ℝ → ℝ) (d : Dict) (p : ℝ × ℝ × ℝ) : Dict :=
  { d with
    state := some (m.stateOf p)
    Ids := some (m.ids ism p.1 p.2.1 p.2.2)
    info := some (m.info cox ism p) }

/-- The terminals, in the order of the drive ports. -/
inductive Port where
  | d | g | s
deriving DecidableEq

/-- Lines 326-339: the conductance returned by `g`. -/
noncomputable def EM.g (m : EM) (gmin : ℝ) (ism : ℝ → ℝ) (p : ℝ × ℝ × ℝ) (k : Port) : ℝ :=
  let raw := match k with
    | .d => m.gmd ism p.1 p.2.1 p.2.2
    | .g => m.gmg ism p.1 p.2.1 p.2.2
    | .s => m.gms ism p.1 p.2.1 p.2.2
  if raw = 0 then (if k = .s then -1 else 1) * gmin * 2 else raw

/-- `i` -/
noncomputable def Dict.i (m : EM) (cox : ℝ) (ism : ℝ → ℝ) (d : Dict) (p : ℝ × ℝ × ℝ) : ℝ × Dict :=
  (m.ids ism p.1 p.2.1 p.2.2, d.eval m cox ism p)

/-- `g`: evaluates the current, too, and stores the conductance. -/
noncomputable def Dict.g (m : EM) (cox gmin : ℝ) (ism : ℝ → ℝ) (d : Dict) (p : ℝ × ℝ × ℝ) (k : Port) : ℝ × Dict :=
  let d1 := d.eval m cox ism p
  let v := m.g gmin ism p k
  (v, match k with
    | .d => { d1 with gmd := some v }
    | .g => { d1 with gmg := some v }
    | .s => { d1 with gms := some v })

/-- `ports_v[0]`: three voltages in a list or in a tuple. -/
structure Ports where
  tuple : Bool
  v : ℝ × ℝ × ℝ

/-- `self.opdict['state'] == ports_v[0]` -/
def Dict.same (d : Dict) (q : Ports) : Prop := q.tuple = true ∧ d.state = some q.v

open Classical in
/-- `update_status_dictionary`, up to 'TEF'. -/
noncomputable def Dict.update (m : EM) (cox gmin : ℝ) (ism : ℝ → ℝ) (d : Dict) (q : Ports) : Dict :=
  if ¬ (d.same q ∧ d.gmd.isSome) ∨ ¬ (d.same q ∧ d.gmg.isSome) ∨ ¬ (d.same q ∧ d.gms.isSome) ∨
      ¬ (d.same q ∧ d.Ids.isSome) then
    let r1 := d.g m cox gmin ism q.v .d
    let r2 := { r1.2 with gmd := some r1.1 }.g m cox gmin ism q.v .g
    let r3 := { r2.2 with gmg := some r2.1 }.g m cox gmin ism q.v .s
    let r4 := { r3.2 with gms := some r3.1 }.i m cox ism q.v
    { r4.2 with Ids := some r4.1 }
  else d

/-- The words and numbers of the table. `TEF` is `none` for NaN. -/
structure Table where
  inversion : String
  region : String
  voltages : ℝ × ℝ × ℝ
  Ids : ℝ
  gmg : ℝ
  gms : ℝ
  rob : ℝ
  VA : ℝ
  TEF : Option ℝ
  info : Info

/-- Lines 281-284: an unknown number leaves the variable unset. -/
def inversionOf : Nat → Option String
  | 0 => some "WEAK INVERSION"
  | 1 => some "MODERATE INVERSION"
  | 2 => some "STRONG INVERSION"
  | _ => none

open Classical in
/-- The table made from the entries; `none` for an exception (unset variable, division by zero). -/
noncomputable def EM.table (m : EM) (v : ℝ × ℝ × ℝ) (ids gmd gmg gms : ℝ) (i : Info) : Option Table :=
  match inversionOf i.WMSI with
  | none => none
  | some inv => if gmd = 0 then none else some
      { inversion := inv
        region := if i.SAT then "SATURATION" else "LINEAR"
        voltages := v
        Ids := ids
        gmg := gmg
        gms := gms
        rob := 1 / gmd
        VA := ids / gmd
        TEF := if ids = 0 then none else some |gms * m.Vth / ids|
        info := i }

/-- The table from a dictionary; `none` also for a missing entry. -/
noncomputable def Dict.table (m : EM) (d : Dict) (v : ℝ × ℝ × ℝ) : Option Table :=
  match d.Ids, d.gmd, d.gmg, d.gms, d.info with
  | some ids, some gmd, some gmg, some gms, some i => m.table v ids gmd gmg gms i
  | _, _, _, _, _ => none

/-- `get_op_info`: the table and the dictionary left. -/
noncomputable def Dict.opInfo (m : EM) (cox gmin : ℝ) (ism : ℝ → ℝ) (d : Dict) (q : Ports) : Option Table × Dict :=
  let d1 := d.update m cox gmin ism q
  (d1.table m q.v, d1)

/-- Calls on a device. -/
inductive Use where
  | i (p : ℝ × ℝ × ℝ)
  | g (p : ℝ × ℝ × ℝ) (k : Port)
  | info (q : Ports)

noncomputable def Dict.use (m : EM) (cox gmin : ℝ) (ism : ℝ → ℝ) (d : Dict) : Use → Dict
  | .i p => (d.i m cox ism p).2
  | .g p k => (d.g m cox gmin ism p k).2
  | .info q => (d.opInfo m cox gmin ism q).2

end Verif.Ekv
