import Verif.Model.SwitchInfo
import Verif.Props.Switch

/-!
# C204: operating point information of switches, and switches that share a model
-/

namespace Verif.SwitchInfo
open Verif.Switch

theorem updateStatus_eq (p : Sw) (th : ℝ → ℝ) (vin : ℝ) (on : Bool) :
    updateStatus p th vin on = (⟨p.V (p.update th vin on), p.update th vin on⟩, p.update th vin on) := by
  unfold updateStatus Sw.update
  cases on <;> simp only [Bool.not_false, Bool.not_true] <;> split_ifs <;> simp_all

theorem getI_eq (p : Sw) (th : ℝ → ℝ) (vout vin : ℝ) (on : Bool) : (getI p th vout vin on).1 = p.i th vout vin on := by
  simp [getI, updateStatus_eq, rAt, Sw.i, Sw.R]

theorem getGo_eq (p : Sw) (th : ℝ → ℝ) (vout vin : ℝ) (on : Bool) : (getGo p th vin on).1 = p.go th vout vin on := by
  simp [getGo, updateStatus_eq, rAt, Sw.go, Sw.R]

/-- evaluating again at the same voltage changes nothing -/
theorem update_twice (p : Sw) (th : ℝ → ℝ) (vin : ℝ) (on : Bool) :
    p.update th vin (p.update th vin on) = p.update th vin on := by
  unfold Sw.update
  cases on <;> simp only [Bool.not_false, Bool.not_true] <;> split_ifs <;> simp_all [V_on, V_off] <;> grind

/-! ### Switches that share a model -/

theorem ask_who (p : Sw) (th : ℝ → ℝ) (gmin : ℝ) (w : World) (a : Ask) (j : Nat) (h : a.who ≠ j) :
    (ask p th gmin w a).1.devs j = w.devs j := by
  cases a <;> simp only [Ask.who] at h <;> simp [ask, World.set, Ne.symm h]

theorem info_snd (p : Sw) (th : ℝ → ℝ) (vout vin : ℝ) (m m' : Shared) (d : Dev) :
    (info p th vout vin m d).2 = (info p th vout vin m' d).2 := by
  unfold info
  split_ifs <;> rfl

theorem ask_same (p : Sw) (th : ℝ → ℝ) (gmin : ℝ) (w w' : World) (a : Ask) (h : w.devs a.who = w'.devs a.who) :
    (ask p th gmin w a).1.devs a.who = (ask p th gmin w' a).1.devs a.who ∧ (ask p th gmin w a).2 = (ask p th gmin w' a).2 := by
  cases a with
  | i k a b => simp only [Ask.who] at h; simp [ask, World.set, Ask.who, h]
  | go k a b => simp only [Ask.who] at h; simp [ask, World.set, Ask.who, h]
  | gm k a b => simp only [Ask.who] at h; simp [ask, World.set, Ask.who, h]
  | info k a b =>
    simp only [Ask.who] at h
    simp [ask, World.set, Ask.who, h, info_snd p th a b w.shared w'.shared]

/-- C204: switches that share a model do not disturb each other: what one of them answers is what it answers if only it is asked,
whatever the model was last used for. -/
theorem C204_shared (p : Sw) (th : ℝ → ℝ) (gmin : ℝ) (k : Nat) (l : List Ask) : ∀ w w' : World, w.devs k = w'.devs k →
    (run p th gmin w l).1.devs k = (run p th gmin w' (l.filter fun a => a.who = k)).1.devs k ∧
      (run p th gmin w l).2.filter (fun r => r.1 = k) = (run p th gmin w' (l.filter fun a => a.who = k)).2 := by
  induction l with
  | nil => intro w w' h; exact ⟨h, rfl⟩
  | cons a r ih =>
    intro w w' h
    by_cases ha : a.who = k
    · have hs := ask_same p th gmin w w' a (by rw [ha]; exact h)
      rw [ha] at hs
      have := ih (ask p th gmin w a).1 (ask p th gmin w' a).1 hs.1
      simp only [List.filter_cons, ha, decide_true, if_true, run]
      exact ⟨this.1, by rw [this.2, hs.2]⟩
    · have := ih (ask p th gmin w a).1 w' (by rw [ask_who p th gmin w a k ha]; exact h)
      simp only [List.filter_cons, ha, decide_false, run]
      exact this

/-! ### The table -/

/-- C204: what a switch that shares its model answers are the current, the conductance and the transconductance of a switch of its own in
its state (that of C41), and the state it has afterwards is the one of the control voltage. -/
theorem C204_answers (p : Sw) (th : ℝ → ℝ) (gmin : ℝ) (w : World) (k : Nat) (vout vin : ℝ) :
    (ask p th gmin w (.i k vout vin)).2 = .num (p.i th vout vin (w.devs k).isOn) ∧
    (ask p th gmin w (.go k vout vin)).2 = .num (p.go th vout vin (w.devs k).isOn) ∧
    (ask p th gmin w (.gm k vout vin)).2 = .num (p.gm th gmin vout vin (w.devs k).isOn) ∧
    ∀ a ∈ [Ask.i k vout vin, .go k vout vin, .gm k vout vin],
      ((ask p th gmin w a).1.devs k) = { w.devs k with isOn := p.update th vin (w.devs k).isOn } := by
  refine ⟨?_, ?_, ?_, ?_⟩
  · simp only [ask, getI_eq]
  · simp only [ask, getGo_eq p th vout]
  · simp only [ask, getGm, Sw.gm, updateStatus_eq]
  · simp [ask, World.set, getI, getGo, getGm, updateStatus_eq]

/-- C204: a table made for voltages other than those of the last one shows the voltages asked for, the resistance and the state of the
switch at them, and the current by Ohm's law. -/
theorem C204_fresh (p : Sw) (th : ℝ → ℝ) (vout vin : ℝ) (m : Shared) (d : Dev)
    (hd : ∀ e, d.op = some e → ¬ (e.vo = vout ∧ e.vs = vin)) :
    let on := p.update th vin d.isOn
    (info p th vout vin m d).2 = ⟨on, some ⟨vout, vin, p.R th on vin, vout / p.R th on vin, on⟩⟩ := by
  have h : ¬ d.op.any (fun e => decide (e.vo = vout ∧ e.vs = vin)) = true := by
    rcases ho : d.op with _ | e
    · simp
    · simpa using hd e ho
  unfold info
  rw [if_neg h]
  simp [getGo, getI, updateStatus_eq, update_twice, rAt, Sw.R]

/-- what is true of the dictionary of a switch at any time -/
def Ohm (p : Sw) (th : ℝ → ℝ) (d : Dev) : Prop :=
  ∀ e, d.op = some e → e.I = e.vo / e.R ∧ e.R = p.R th e.status e.vs

theorem ohm_info {p : Sw} {th : ℝ → ℝ} {d : Dev} (h : Ohm p th d) (vout vin : ℝ) (m : Shared) : Ohm p th (info p th vout vin m d).2 := by
  by_cases hd : ∀ e, d.op = some e → ¬ (e.vo = vout ∧ e.vs = vin)
  · rw [C204_fresh p th vout vin m d hd]
    intro e he
    injection he with he
    subst he
    exact ⟨rfl, rfl⟩
  · push Not at hd
    obtain ⟨e, he, h1, h2⟩ := hd
    have : (info p th vout vin m d).2 = d := by
      unfold info
      rw [if_pos (by simp [he, h1, h2])]
    rw [this]
    exact h

/-- C204: whatever was asked before, the table of a switch obeys Ohm's law with the resistance that belongs to the status it shows. -/
theorem C204_ohm (p : Sw) (th : ℝ → ℝ) (gmin : ℝ) (l : List Ask) : ∀ w : World, (∀ k, Ohm p th (w.devs k)) →
    ∀ k, Ohm p th ((run p th gmin w l).1.devs k) := by
  induction l with
  | nil => intro w h; exact h
  | cons a r ih =>
    intro w h
    refine ih _ fun k => ?_
    by_cases ha : a.who = k
    · subst ha
      cases a with
      | info j a b =>
        have := ohm_info (h j) a b w.shared
        simpa [ask, World.set, Ask.who] using this
      | _ => simpa [ask, World.set, Ask.who, Ohm] using h _
    · rw [ask_who p th gmin w a k ha]
      exact h k

/-- the table of a new switch -/
theorem ohm_init (p : Sw) (th : ℝ → ℝ) (ic : Option Bool) : Ohm p th (Dev.init ic) := by
  intro e he
  simp [Dev.init] at he

/-- C204: the status shown is the state of the switch if the switch was not evaluated since its last table. What is missing: a table
for the voltages of the last one is not made again, although the switch may have changed its state (`C204_status_refuted`). -/
theorem C204_status_partial (p : Sw) (th : ℝ → ℝ) (vout vin : ℝ) (m : Shared) (d : Dev) (h : ∀ e, d.op = some e → e.status = d.isOn) :
    ∀ e, (info p th vout vin m d).2.op = some e → e.status = (info p th vout vin m d).2.isOn := by
  by_cases hd : ∀ e, d.op = some e → ¬ (e.vo = vout ∧ e.vs = vin)
  · rw [C204_fresh p th vout vin m d hd]
    intro e he
    injection he with he
    subst he
    rfl
  · push Not at hd
    obtain ⟨e, he, h1, h2⟩ := hd
    have : (info p th vout vin m d).2 = d := by
      unfold info
      rw [if_pos (by simp [he, h1, h2])]
    rw [this]
    exact h

/-- `tanh` with results that are equal to one from 1 on, as for floating point numbers from 19.1 on -/
noncomputable def clip (x : ℝ) : ℝ := max (-1) (min 1 x)

/-- a switch that closes above 3 V and opens below 1 V -/
noncomputable def exSw : Sw := ⟨2, 1, 1, 1000⟩

theorem clip_hi {x : ℝ} (h : 1 ≤ x) : clip x = 1 := by simp [clip, min_eq_left h]

theorem ex_close : exSw.update clip 4 false = true := by
  have h1 : clip ((4 - exSw.V false) * Switch.slope) = 1 := clip_hi (by norm_num [V_off, exSw, Switch.slope])
  have h2 : clip ((4 - exSw.V true) * Switch.slope) = 1 := clip_hi (by norm_num [V_on, exSw, Switch.slope])
  have h3 : (4 : ℝ) > exSw.V false := by norm_num [V_off, exSw]
  have h4 : ¬ (4 : ℝ) < exSw.V true := by norm_num [V_on, exSw]
  simp [Sw.update, Sw.R, h1, h2, h3, h4]

theorem ex_keep (on : Bool) : exSw.update clip 2 on = on := by
  have h1 : ¬ (2 : ℝ) > exSw.V false := by norm_num [V_off, exSw]
  have h2 : ¬ (2 : ℝ) < exSw.V true := by norm_num [V_on, exSw]
  cases on <;> simp [Sw.update, h1, h2]

/-- C204 refuted: a switch that is closed, at voltages that keep it closed, is shown as open with its resistance when open, because the
last table was made at the same voltages before the switch closed. -/
theorem C204_status_refuted : ∃ (w : World) (e : Entry), w.devs 0 = Dev.init none ∧
    let l := [Ask.info 0 1 2, Ask.i 0 1 4, Ask.info 0 1 2]
    ((run exSw clip 0 w l).1.devs 0).isOn = true ∧ ((run exSw clip 0 w l).1.devs 0).op = some e ∧ e.status = false ∧
      e.R = exSw.R clip false 2 ∧ exSw.R clip false 2 = 1000 ∧ exSw.R clip true 2 = 1 := by
  have hf : exSw.R clip false 2 = 1000 := by
    have : clip ((2 - exSw.V false) * Switch.slope) = -1 := by
      have : (2 - exSw.V false) * Switch.slope = -100 := by norm_num [V_off, exSw, Switch.slope]
      rw [this]
      norm_num [clip]
    rw [Sw.R, this]
    norm_num [Sw.A, Sw.B, exSw]
  have ht : exSw.R clip true 2 = 1 := by
    rw [Sw.R, clip_hi (by norm_num [V_on, exSw, Switch.slope])]
    norm_num [Sw.A, Sw.B, exSw]
  have h1 := C204_fresh exSw clip 1 2 ⟨0, false⟩ (Dev.init none) (by simp [Dev.init])
  simp only [Dev.init, Option.getD_none, ex_keep] at h1
  refine ⟨⟨⟨0, false⟩, fun _ => Dev.init none⟩, ⟨1, 2, exSw.R clip false 2, 1 / exSw.R clip false 2, false⟩, rfl, ?_⟩
  simp only [run, ask, World.set, Dev.init, Option.getD_none, if_true, h1, getI, updateStatus_eq, ex_close, ht, hf]
  simp [info]

/-! ### Guesses -/

/-- C204: the guess for the control voltage of a switch with positive thresholds leaves the switch in the state given for it. What is
missing: switches with thresholds that are not positive (`C204_guess_refuted`). -/
theorem C204_guess_partial (p : Sw) (th : ℝ → ℝ) (hT : 0 < p.VT) (hH : 0 ≤ p.VH) (on : Bool) :
    p.update th (guess p on) on = on := by
  cases on
  · have : ¬ guess p false > p.V false := by rw [V_off, guess]; simp; linarith
    simp [Sw.update, this]
  · have : ¬ guess p true < p.V true := by rw [V_on, guess]; simp; linarith
    simp [Sw.update, this]

/-- C204 refuted: with a negative threshold the guess opens every switch without hysteresis that is said to be closed, and closes those
that are said to be open. -/
theorem C204_guess_refuted (p : Sw) (th : ℝ → ℝ) (hT : p.VT < 0) (hH : p.VH = 0) (on : Bool) :
    p.update th (guess p on) on = !on := by
  have hV : ∀ b, p.V b = p.VT := by intro b; cases b <;> simp [V_on, V_off, hH]
  have hR : ∀ v, p.R th true v - p.R th false v = 0 := by intro v; simp [Sw.R, hV]
  have hR' : ∀ v, p.R th false v - p.R th true v = 0 := by intro v; simp [Sw.R, hV]
  cases on
  · have h1 : guess p false > p.VT := by rw [guess]; simp; linarith
    simp [Sw.update, hV, hR', h1, h1.le]
  · have h1 : guess p true < p.VT := by rw [guess]; simp; linarith
    simp [Sw.update, hV, hR, h1]

example : (0 : ℝ) < exSw.VT ∧ 0 ≤ exSw.VH := by norm_num [exSw]
example : (⟨-2, 0, 1, 1000⟩ : Sw).VT < 0 ∧ (⟨-2, 0, 1, 1000⟩ : Sw).VH = 0 := by norm_num

/-- two switches of one model of which one closes -/
example : ((run exSw clip 0 ⟨⟨0, false⟩, fun _ => Dev.init none⟩ [.i 0 1 4, .i 1 1 2]).1.devs 0).isOn = true ∧
    ((run exSw clip 0 ⟨⟨0, false⟩, fun _ => Dev.init none⟩ [.i 0 1 4, .i 1 1 2]).1.devs 1).isOn = false := by
  simp [run, ask, World.set, Dev.init, getI, updateStatus_eq, ex_close, ex_keep]

end Verif.SwitchInfo
