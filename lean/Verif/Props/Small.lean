import Verif.Model.Small
import Mathlib.Data.List.Count
import Mathlib.Data.List.Dedup
import Mathlib.Data.List.Nodup
import Mathlib.Tactic.Linarith
import Mathlib.Tactic.Ring
import Mathlib.Tactic.FieldSimp

/-!
Properties C69 (values of sources), C71 (booleans), C72 (param=value), C73 (temperatures),
C74 (ticker), C75 (resistors), C82 (duplicate ids).
-/

namespace Verif.Small
open Verif.Circuit

/-! ### C69 -/

/-- C69: without a time function the value of a source is its DC value, at any time. -/
theorem C69_dc_only {α : Type} (s : Src α) (h : s.timeDep = false ∨ s.fn = none)
    (time : Option α) : s.eval time = s.dc := by
  obtain ⟨dc, ac, td, fn⟩ := s
  rcases h with h | h
  · simp only at h; subst h; rfl
  · simp only at h; subst h; cases td <;> rfl

/-- C69: without a time, a source that has a DC value takes it. -/
theorem C69_no_time {α : Type} (s : Src α) (v : α) (h : s.dc = some v) :
    s.eval none = some v := by
  obtain ⟨dc, ac, td, fn⟩ := s
  simp only at h; subst h
  cases td <;> cases fn <;> rfl

/-- C69: at a given time a time-dependent source has the value of its function. -/
theorem C69_waveform {α : Type} (s : Src α) (f : Option α → α) (h : s.timeDep = true)
    (hf : s.fn = some f) (t : α) : s.eval (some t) = some (f (some t)) := by
  obtain ⟨dc, ac, td, fn⟩ := s
  simp only at h hf; subst h; subst hf; rfl

/-- C69: without a DC value and without a time the function is asked for its value at rest. -/
theorem C69_rest {α : Type} (s : Src α) (f : Option α → α) (h : s.timeDep = true)
    (hf : s.fn = some f) (hdc : s.dc = none) : s.eval none = some (f none) := by
  obtain ⟨dc, ac, td, fn⟩ := s
  simp only at h hf hdc; subst h; subst hf; subst hdc; rfl

/-- A source with a DC value and a function that differs from it. -/
def srcDemo : Src ℚ := { dc := some 5, timeDep := true, fn := some fun t => t.getD 0 + 1 }

example : srcDemo.eval none = some 5 ∧ srcDemo.eval (some 2) = some 3 ∧
    ({ srcDemo with dc := none }).eval none = some 1 ∧
    ({ srcDemo with timeDep := false }).eval (some 2) = some 5 := by decide +kernel

/-! ### C71 -/

/-- C71 (part): the documented lower-case spellings, and nothing else. -/
theorem C71_spellings_partial (s : String) :
    (convertBoolean s = some true ↔ s ∈ ["yes", "1", "true"]) ∧
    (convertBoolean s = some false ↔ s ∈ ["no", "false", "0"]) ∧
    (convertBoolean s = none ↔ s ∉ ["yes", "1", "true", "no", "false", "0"]) := by
  unfold convertBoolean
  simp only [List.mem_cons, List.not_mem_nil, or_false]
  by_cases h1 : s = "no" ∨ s = "false" ∨ s = "0"
  · rw [if_pos h1]
    refine ⟨⟨fun h => (by cases h), fun h => ?_⟩, ⟨fun _ => h1, fun _ => rfl⟩,
      ⟨fun h => (by cases h), fun h => ?_⟩⟩
    · rcases h with rfl | rfl | rfl <;> simp at h1
    · exfalso; apply h; right; right; right; exact h1
  · rw [if_neg h1]
    by_cases h2 : s = "yes" ∨ s = "true" ∨ s = "1"
    · rw [if_pos h2]
      refine ⟨⟨fun _ => by tauto, fun _ => rfl⟩, ⟨fun h => (by cases h), fun h => absurd h h1⟩,
        ⟨fun h => (by cases h), fun h => ?_⟩⟩
      exfalso; apply h; tauto
    · rw [if_neg h2]
      refine ⟨⟨fun h => (by cases h), fun h => ?_⟩, ⟨fun h => (by cases h), fun h => absurd h h1⟩,
        ⟨fun _ => by tauto, fun _ => rfl⟩⟩
      exfalso; apply h2; tauto

/-- C71 is false for other letter cases. -/
theorem C71_case_refuted : convertBoolean "Yes" = none ∧ convertBoolean "FALSE" = none := by
  decide +kernel

/-! ### C72 -/

theorem splitEq_join (s : List Char) (h : '=' ∈ s) :
    (splitEq s).1 ++ '=' :: (splitEq s).2 = s ∧ '=' ∉ (splitEq s).1 := by
  induction s with
  | nil => simp at h
  | cons c s ih =>
    by_cases hc : c = '='
    · subst hc; simp [splitEq]
    · have hs : '=' ∈ s := by
        rcases List.mem_cons.1 h with h | h
        · exact absurd h.symm hc
        · exact h
      obtain ⟨h1, h2⟩ := ih hs
      unfold splitEq at h1 h2 ⊢
      constructor
      · simpa [hc] using h1
      · simp only [ne_eq, hc, not_false_eq_true, decide_true, List.takeWhile_cons_of_pos,
          List.mem_cons, not_or]
        exact ⟨fun h => hc h.symm, h2⟩

/-- C72: with text values, label and value joined with `=` give the string back (without
surrounding blanks), if it contains exactly one `=`. -/
theorem C72_rejoin (s p : List Char) (v : Val) (hp : isParam s = true)
    (h : paramValue s .str = some (p, v)) :
    ∃ t, v = .text t ∧ p ++ '=' :: t = Units.strip s ∧ '=' ∉ p ∧ '=' ∉ t := by
  unfold paramValue at h
  rw [hp] at h
  simp only [Bool.not_true, Bool.false_eq_true, if_false, convert, Option.map_some,
    Option.some.injEq, Prod.mk.injEq] at h
  obtain ⟨h1, h2⟩ := h
  have hcount : (Units.strip s).count '=' = 1 := by simpa [isParam] using hp
  have hmem : '=' ∈ Units.strip s := by
    apply List.count_pos_iff.1; omega
  obtain ⟨hj, hn⟩ := splitEq_join _ hmem
  refine ⟨_, h2.symm, ?_, ?_, ?_⟩
  · rw [← h1]; exact hj
  · rw [← h1]; exact hn
  · have hc := congrArg (List.count '=') hj
    rw [List.count_append, List.count_cons_self, hcount] at hc
    have : List.count '=' (splitEq (Units.strip s)).2 = 0 := by omega
    exact fun hm => absurd (List.count_pos_iff.2 hm) (by omega)

/-- C72: every string of the form `label=value`, without blanks and other `=`, is split into
these two. -/
theorem C72_split (p t : List Char) (hp : '=' ∉ p) (ht : '=' ∉ t)
    (hw : Units.strip (p ++ '=' :: t) = p ++ '=' :: t) (ty : PType) :
    paramValue (p ++ '=' :: t) ty = (convert t ty).map fun x => (p, x) := by
  have hs : splitEq (p ++ '=' :: t) = (p, t) := by
    unfold splitEq
    induction p with
    | nil => simp
    | cons c p ih =>
      have hc : c ≠ '=' := fun h => hp (by simp [h])
      have hpp : '=' ∉ p := fun h => hp (List.mem_cons_of_mem _ h)
      have : ∀ p : List Char, '=' ∉ p →
          (p ++ '=' :: t).takeWhile (· ≠ '=') = p ∧
          ((p ++ '=' :: t).dropWhile (· ≠ '=')).drop 1 = t := by
        intro p hp
        induction p with
        | nil => simp
        | cons c p ih =>
          have hc : c ≠ '=' := fun h => hp (by simp [h])
          have := ih (fun h => hp (List.mem_cons_of_mem _ h))
          simp only [List.cons_append]
          rw [List.takeWhile_cons_of_pos (by simp [hc]), List.dropWhile_cons_of_pos (by simp [hc])]
          exact ⟨by rw [this.1], this.2⟩
      have := this (c :: p) hp
      rw [this.1, this.2]
  have hcount : List.count '=' (p ++ '=' :: t) = 1 := by
    rw [List.count_append, List.count_cons_self, List.count_eq_zero_of_not_mem hp,
      List.count_eq_zero_of_not_mem ht]
  unfold paramValue isParam
  rw [hw, hcount]
  simp [hs]

/-- C72: a string with no or with several `=` is handed back whole, with an empty value. -/
theorem C72_other (s : List Char) (h : (Units.strip s).count '=' ≠ 1) (ty : PType) :
    paramValue s ty = some (s, .text []) := by
  unfold paramValue isParam
  simp [h]

/-- C72: with number values, the value is the number if the text is one, else the text. -/
theorem C72_number (p t : List Char) (hp : '=' ∉ p) (ht : '=' ∉ t)
    (hw : Units.strip (p ++ '=' :: t) = p ++ '=' :: t) (x : ℚ)
    (hx : Units.convertUnits t = .ok x) :
    paramValue (p ++ '=' :: t) .float = some (p, .num x) := by
  rw [C72_split p t hp ht hw, convert, hx]
  rfl

example : paramValue "v(1)=10u".toList .float = some ("v(1)".toList, .num (1 / 100000)) := by
  decide +kernel
example : Units.strip "v(1)=10u".toList = "v(1)=10u".toList := by decide +kernel
example : paramValue "a=b=c".toList .str = some ("a=b=c".toList, .text []) := by decide +kernel

/-! ### C73 -/

/-- C73: the conversions are inverse to each other. -/
theorem C73_inverse (t : ℚ) :
    kelvin2Celsius (celsius2Kelvin t) = t ∧ celsius2Kelvin (kelvin2Celsius t) = t := by
  unfold kelvin2Celsius celsius2Kelvin
  constructor <;> ring

/-- C73: absolute zero and the freezing point, and unit slope. -/
theorem C73_scale (t d : ℚ) : celsius2Kelvin 0 = 27315 / 100 ∧ kelvin2Celsius 0 = -27315 / 100 ∧
    celsius2Kelvin (t + d) - celsius2Kelvin t = d := by
  unfold kelvin2Celsius celsius2Kelvin
  refine ⟨by ring, by ring, by ring⟩

/-! ### C74 -/

theorem tick_lt (t : Ticker) (h : t.step < frames) : t.tick.step < frames := by
  unfold Ticker.tick
  split
  · exact h
  · split
    · simp only
      split
      · decide
      · rename_i h2
        have : (t.step + 1) ≠ frames := fun he => h2 (by rw [he]; decide)
        omega
    · exact h

theorem apply_lt (t : Ticker) (h : t.step < frames) (o : TOp) : (t.apply o).step < frames := by
  cases o with
  | step => exact tick_lt t h
  | hide => exact h
  | hideIf b => cases b <;> exact h
  | display => exact h
  | displayIf b => cases b <;> exact h
  | reset => simp [Ticker.apply, frames]

/-- C74: whatever the history of calls, every index of a shown frame is valid. -/
theorem C74_in_range (t : Ticker) (h : t.step < frames) (ops : List TOp) :
    (t.run ops).1.step < frames ∧ ∀ i ∈ (t.run ops).2, i < frames := by
  induction ops generalizing t with
  | nil => exact ⟨h, by simp [Ticker.run]⟩
  | cons o os ih =>
    have ha := apply_lt t h o
    obtain ⟨h1, h2⟩ := ih (t.apply o) ha
    refine ⟨h1, ?_⟩
    intro i hi
    simp only [Ticker.run, List.mem_append, Option.mem_toList] at hi
    rcases hi with hi | hi
    · cases o with
      | step =>
        simp only [Ticker.shown] at hi
        split at hi
        · simp at hi; rw [← hi]; exact tick_lt t h
        · simp at hi
      | display => simp [Ticker.shown] at hi; rw [← hi]; exact h
      | displayIf b =>
        cases b
        · simp [Ticker.shown] at hi
        · simp [Ticker.shown] at hi; rw [← hi]; exact h
      | hide => simp [Ticker.shown] at hi
      | hideIf b => simp [Ticker.shown] at hi
      | reset => simp [Ticker.shown] at hi
    · exact h2 i hi

/-- `n` calls of `step`. -/
def ticks (t : Ticker) : Nat → Ticker
  | 0 => t
  | n + 1 => ticks t.tick n

theorem ticks_low (t : Ticker) (hd : t.display = true) (n : Nat) (h : t.index + n < t.inc) :
    ticks t n = { t with index := t.index + n } := by
  induction n generalizing t with
  | zero => rfl
  | succ n ih =>
    have htick : t.tick = { t with index := t.index + 1 } := by
      unfold Ticker.tick
      rw [hd]
      simp only [Bool.not_true, Bool.false_eq_true, if_false]
      rw [if_neg]
      rw [Nat.mod_eq_of_lt (by omega)]
      omega
    rw [ticks, htick, ih { t with index := t.index + 1 } hd (by
      show t.index + 1 + n < t.inc; omega)]
    simp only [Ticker.mk.injEq, and_true, true_and]
    omega

/-- C74: after `hide` nothing is shown until `display` is called, however many steps are made. -/
theorem C74_hidden (t : Ticker) (b : Bool) (hb : b = true) (ops : List TOp)
    (h : ∀ o ∈ ops, o = .step ∨ o = .hide ∨ o = .hideIf true ∨ o = .hideIf false ∨ o = .displayIf false ∨ o = .reset) :
    ((t.apply .hide).run ops).2 = [] ∧ ((t.apply (.hideIf b)).run ops).2 = [] := by
  subst hb
  have key : ∀ (ops : List TOp) (t : Ticker), t.display = false →
      (∀ o ∈ ops, o = .step ∨ o = .hide ∨ o = .hideIf true ∨ o = .hideIf false ∨ o = .displayIf false ∨ o = .reset) →
      (t.run ops).2 = [] := by
    intro ops
    induction ops with
    | nil => intros; rfl
    | cons o os ih =>
      intro t ht ho
      have h1 := ho o (List.mem_cons_self ..)
      have h2 := ih (t.apply o) (by
        rcases h1 with rfl | rfl | rfl | rfl | rfl | rfl <;> simp [Ticker.apply, Ticker.tick, ht])
        fun o' h' => ho o' (List.mem_cons_of_mem _ h')
      simp only [Ticker.run, h2]
      rcases h1 with rfl | rfl | rfl | rfl | rfl | rfl <;> simp [Ticker.shown, ht]
  exact ⟨key ops _ rfl h, key ops _ rfl h⟩

/-- C74: `display` makes the ticker visible and shows the present frame, `reset` goes back to the first frame
without hiding it; both can be switched off by `enable=False`. -/
theorem C74_displayed (t : Ticker) :
    (t.apply .display).display = true ∧ (t.apply (.displayIf true)).display = true ∧ t.apply (.displayIf false) = t ∧
      t.apply (.hideIf false) = t ∧ t.shown .display = some t.step ∧
      t.apply .reset = { t with step := 0, index := 0 } := by
  refine ⟨rfl, rfl, rfl, rfl, rfl, rfl⟩

/-- C74: a displayed ticker moves to the next frame, cyclically, after every
`increments_for_step` steps; so it cycles through all frames. -/
theorem C74_cycles (t : Ticker) (hd : t.display = true) (hi : t.index = 0) (hinc : 0 < t.inc)
    (h : t.step < frames) (n : Nat) :
    (ticks t (n * t.inc)).step = (t.step + n) % frames ∧ (ticks t (n * t.inc)).index = 0 := by
  have add : ∀ (t : Ticker) (a b : Nat), ticks t (a + b) = ticks (ticks t a) b := by
    intro t a b
    induction a generalizing t with
    | zero => simp [ticks]
    | succ a ih => rw [Nat.succ_add, ticks, ticks, ih]
  have one : ∀ t : Ticker, t.display = true → t.index = 0 → 0 < t.inc → t.step < frames →
      ticks t t.inc = { t with step := (t.step + 1) % frames } := by
    intro t hd hi hinc h
    obtain ⟨m, hm⟩ : ∃ m, t.inc = m + 1 := ⟨t.inc - 1, by omega⟩
    have e := add t m 1
    rw [← hm] at e
    rw [e, ticks_low t hd m (by omega)]
    simp only [ticks, Ticker.tick, hd, Bool.not_true, Bool.false_eq_true, if_false, hi]
    rw [if_pos (by rw [hm]; simp)]
    have hs : (if (t.step + 1) % frames = 0 then 0 else t.step + 1) = (t.step + 1) % frames := by
      split
      · rename_i h0; exact h0.symm
      · rename_i h0
        have : t.step + 1 ≠ frames := fun he => h0 (by rw [he]; decide)
        rw [Nat.mod_eq_of_lt (by omega)]
    rw [hs]
  induction n generalizing t with
  | zero => simp [ticks, Nat.mod_eq_of_lt h, hi]
  | succ n ih =>
    rw [Nat.succ_mul, Nat.add_comm, add, one t hd hi hinc h]
    have := ih { t with step := (t.step + 1) % frames } hd hi hinc
      (Nat.mod_lt _ (by decide))
    simp only at this
    rw [this.1]
    refine ⟨?_, this.2⟩
    rw [Nat.add_mod, Nat.mod_mod, ← Nat.add_mod]
    congr 1; omega

example : (({} : Ticker).run (.display :: (List.replicate 55 .step ++ [.reset]))).2 =
    [0, 1, 2, 3, 0, 1] := by decide +kernel

/-! ### C75 -/

/-- A resistor after some assignments (the caller ignores exceptions). -/
def Res.run (r : Res) : List ROp → Res
  | [] => r
  | o :: os => Res.run (r.set o).1 os

/-- C75 (part): after any assignments none of which raised, `g` is the reciprocal of `value`,
and the last assignment is what is read back. -/
theorem C75_reciprocal_partial (v0 : ℚ) (r : Res) (h0 : Res.init v0 = some r) (ops : List ROp)
    (h : ∀ o ∈ ops, o ≠ .setValue 0 ∧ o ≠ .setG 0) :
    (r.run ops).g * (r.run ops).value = 1 := by
  have inv : r.g * r.value = 1 := by
    unfold Res.init at h0
    split at h0
    · cases h0
    · cases h0
      rename_i hv
      simp only
      field_simp
  clear h0
  induction ops generalizing r with
  | nil => exact inv
  | cons o os ih =>
    have ho := h o (by simp)
    refine ih _ (fun o' ho' => h o' (List.mem_cons_of_mem _ ho')) ?_
    cases o with
    | setValue v =>
      have hv : v ≠ 0 := fun hv => ho.1 (by rw [hv])
      simp only [Res.set, if_neg hv]
      field_simp
    | setG g =>
      have hg : g ≠ 0 := fun hg => ho.2 (by rw [hg])
      simp only [Res.set, if_neg hg]
      field_simp

/-- C75: the assigned attribute is read back. -/
theorem C75_read_back (r : Res) (x : ℚ) :
    (r.set (.setValue x)).1.value = x ∧ (r.set (.setG x)).1.g = x := by
  unfold Res.set
  constructor <;> simp only <;> split <;> rfl

/-- C75: zero is refused with an exception, other values are not. -/
theorem C75_zero_raises (r : Res) (x : ℚ) :
    ((r.set (.setValue x)).2 = true ↔ x = 0) ∧ ((r.set (.setG x)).2 = true ↔ x = 0) ∧
    (Res.init x = none ↔ x = 0) := by
  unfold Res.set Res.init
  refine ⟨?_, ?_, ?_⟩ <;> by_cases h : x = 0 <;> simp [h]

/-- C75 is false after a refused assignment: the zero is stored before the exception, and the
pair no longer matches. -/
theorem C75_after_zero_refuted (r : Res) :
    (r.set (.setValue 0)).1.g * (r.set (.setValue 0)).1.value ≠ 1 ∧
    (r.set (.setG 0)).1.g * (r.set (.setG 0)).1.value ≠ 1 := by
  simp [Res.set]

example : (Res.run ⟨2, 1/2⟩ [.setG 4, .setValue 8, .setG (1/3)]) = ⟨3, 1/3⟩ := by decide +kernel

/-! ### C82 -/

/-- C82: `has_duplicate_elem` is true exactly if two elements at different positions have the
same part id. -/
theorem C82_duplicates {α : Type} (circ : List (Elem α)) :
    hasDuplicateElem circ = true ↔
      ∃ i j, ∃ hi : i < circ.length, ∃ hj : j < circ.length, i < j ∧
        (circ[i]).id = (circ[j]).id := by
  have hd : hasDuplicateElem circ = true ↔ ¬ (circ.map Elem.id).Nodup := by
    unfold hasDuplicateElem
    rw [bne_iff_ne, ne_eq]
    constructor
    · intro h hn
      exact h (by rw [List.dedup_eq_self.2 hn])
    · intro h he
      apply h
      have := (List.dedup_sublist (circ.map Elem.id)).eq_of_length he
      rw [← this]
      exact List.nodup_dedup _
  rw [hd]
  constructor
  · intro h
    by_contra hc
    apply h
    rw [List.nodup_iff_getElem?_ne_getElem?]
    intro i j hij hj he
    apply hc
    have hj' : j < circ.length := by simpa using hj
    refine ⟨i, j, by omega, hj', hij, ?_⟩
    simpa [List.getElem?_eq_getElem, hj', (by omega : i < circ.length)] using he
  · rintro ⟨i, j, hi, hj, hij, he⟩ hn
    rw [List.nodup_iff_getElem?_ne_getElem?] at hn
    apply hn i j hij (by simpa using hj)
    simp [List.getElem?_eq_getElem, hi, hj, he]

example : hasDuplicateElem [Elem.R "R1" 0 1 (1 : ℚ), .R "R2" 1 0 1, .R "R1" 2 0 1] = true ∧
    hasDuplicateElem [Elem.R "R1" 0 1 (1 : ℚ), .R "r1" 1 0 1] = false := by decide +kernel

end Verif.Small
