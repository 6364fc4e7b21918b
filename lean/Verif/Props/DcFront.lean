import Verif.Model.DcFront
import Verif.Props.Sweep
import Verif.Props.Results

/-!
Property C157: what a DC sweep does with its arguments, and logarithmic sweeps.
-/

namespace Verif.DcFront

open Verif.Axes Verif.Sweep Verif.Circuit

variable {S : Type}

theorem findSource_some {ty : Char} {descr : List Char} {parts : List Part} {i : Nat}
    (h : findSource ty descr parts = some i) :
    ∃ p, parts[i]? = some p ∧ isSource ty descr p = true ∧
      ∀ j < i, ∀ q, parts[j]? = some q → isSource ty descr q = false := by
  induction parts generalizing i with
  | nil => simp [findSource] at h
  | cons p rest ih =>
    unfold findSource at h
    split at h
    · rename_i hp
      cases h
      exact ⟨p, rfl, hp, fun j hj => absurd hj (Nat.not_lt_zero _)⟩
    · rename_i hp
      cases e : findSource ty descr rest with
      | none => rw [e] at h; simp at h
      | some k =>
        rw [e] at h
        simp only [Option.map_some, Option.some.injEq] at h
        subst h
        obtain ⟨q, h1, h2, h3⟩ := ih e
        refine ⟨q, by simpa using h1, h2, ?_⟩
        intro j hj r hr
        cases j with
        | zero => simp only [List.getElem?_cons_zero, Option.some.injEq] at hr; subst hr; simpa using hp
        | succ j => exact h3 j (by omega) r (by simpa using hr)

theorem findSource_none {ty : Char} {descr : List Char} {parts : List Part}
    (h : findSource ty descr parts = none) : ∀ p ∈ parts, isSource ty descr p = false := by
  induction parts with
  | nil => simp
  | cons p rest ih =>
    unfold findSource at h
    split at h
    · cases h
    · rename_i hp
      have := ih (by simpa using h)
      simpa [hp] using this

/-- the two kinds of source and the letter their names start with -/
def Letter (c : Char) (k : Kind) : Prop := ((c = 'v' ∨ c = 'V') ∧ k = .vsource) ∨ ((c = 'i' ∨ c = 'I') ∧ k = .isource)

theorem low_tab : ∀ n < 128, ((Char.ofNat n).toLower = 'v' ↔ Char.ofNat n = 'v' ∨ Char.ofNat n = 'V') ∧
    ((Char.ofNat n).toLower = 'i' ↔ Char.ofNat n = 'i' ∨ Char.ofNat n = 'I') := by decide +kernel

theorem low_vi (c : Char) : (c.toLower = 'v' ↔ c = 'v' ∨ c = 'V') ∧ (c.toLower = 'i' ↔ c = 'i' ∨ c = 'I') := by
  by_cases h : c.toNat < 128
  · have := low_tab c.toNat h
    rwa [Char.ofNat_toNat] at this
  · have h1 := (Results.low_high c (by omega)).1
    rw [h1]
    have : ∀ d : Char, d.toNat < 128 → c ≠ d := by
      rintro d hd rfl
      exact h hd
    simp [this 'v' (by decide), this 'V' (by decide), this 'i' (by decide), this 'I' (by decide)]

/-- the element is a source with the kind the name calls for, and the name, upper or lower case -/
def Named (c : Char) (source : String) (p : Part) : Prop := Letter c p.kind ∧ lower p.id = lower source

theorem isSource_iff (c : Char) (source : String) (p : Part) :
    isSource c.toLower (lower source) p = true ↔ Named c source p := by
  unfold isSource Named Letter
  rw [← (low_vi c).1, ← (low_vi c).2]
  simp [and_comm]

/-- where a sweep gets to: everything that is tested before the first operating point -/
theorem reached (parts : List Part) (skip : Bool) (op : Nat → Nat → ℝ → Option S → Outcome S)
    (dcs : Nat → ℝ) (start stop step : ℝ) (source stype : String) (x0 : Option S) :
    (∃ e, dcFull parts skip op dcs start stop step source stype x0 = refuse dcs e) ∨
    ∃ c rest i p vs, source.toList = c :: rest ∧ parts[i]? = some p ∧ Named c source p ∧
      (∀ j < i, ∀ q, parts[j]? = some q → ¬ Named c source q) ∧
      0 ≤ (stop - start) * step ∧ step ≠ 0 ∧
      axis ((upper stype).take 3) start stop ((stop - start) / step + 1) = .ok vs ∧
      dcFull parts skip op dcs start stop step source stype x0 = sweep skip (op i) dcs i vs x0 := by
  unfold dcFull
  cases hs : source.toList with
  | nil => exact Or.inl ⟨_, rfl⟩
  | cons c rest =>
    simp only
    split
    · exact Or.inl ⟨_, rfl⟩
    split
    · exact Or.inl ⟨_, rfl⟩
    rename_i hn
    split
    · exact Or.inl ⟨_, rfl⟩
    rename_i hz
    cases ha : axis ((upper stype).take 3) start stop ((stop - start) / step + 1) with
    | error e => exact Or.inl ⟨_, rfl⟩
    | ok vs =>
      simp only
      split
      · exact Or.inl ⟨_, rfl⟩
      cases hf : findSource c.toLower (lower source) parts with
      | none => exact Or.inl ⟨_, rfl⟩
      | some i =>
        right
        obtain ⟨p, h1, h2, h3⟩ := findSource_some hf
        refine ⟨c, rest, i, p, vs, rfl, h1, (isSource_iff _ _ _).1 h2, ?_, not_lt.1 hn, hz, rfl, rfl⟩
        intro j hj q hq hN
        rw [← isSource_iff] at hN
        rw [h3 j hj q hq] at hN
        cases hN

theorem sweep_swept (skip : Bool) (op : Nat → ℝ → Option S → Outcome S) (dcs : Nat → ℝ) (i : Nat)
    (vs : List ℝ) (x0 : Option S) :
    (sweep skip op dcs i vs x0).swept = some i ∧ (∀ j ≠ i, (sweep skip op dcs i vs x0).dcs j = dcs j) ∧
      ((∃ r, (sweep skip op dcs i vs x0).out = .ok r) → (sweep skip op dcs i vs x0).dcs = dcs) := by
  unfold sweep
  rcases loop skip op 0 vs ⟨dcs i, x0, none, [], []⟩ with ⟨s, raised⟩
  simp only
  split
  · exact ⟨rfl, fun j hj => by simp [hj], fun ⟨_, h⟩ => by simp at h⟩
  · split
    · exact ⟨rfl, fun j hj => by simp [hj], fun ⟨_, h⟩ => by simp at h⟩
    · exact ⟨rfl, fun _ _ => rfl, fun _ => rfl⟩

/-- C157: the element that is swept is the first in the circuit that is a voltage source (name
beginning with v) or a current source (i) and has the name, in any case. Other elements are
never touched. If the analysis returns, or if it raises before the first operating point, the
swept source is as before, too. -/
theorem C157_source (parts : List Part) (skip : Bool) (op : Nat → Nat → ℝ → Option S → Outcome S)
    (dcs : Nat → ℝ) (start stop step : ℝ) (source stype : String) (x0 : Option S) :
    let r := dcFull parts skip op dcs start stop step source stype x0
    (∀ i, r.swept = some i → ∃ c rest p, source.toList = c :: rest ∧ parts[i]? = some p ∧ Named c source p ∧
      ∀ j < i, ∀ q, parts[j]? = some q → ¬ Named c source q) ∧
    (∀ j, r.swept ≠ some j → r.dcs j = dcs j) ∧
    ((∃ o, r.out = .ok o) ∨ r.swept = none → r.dcs = dcs) := by
  intro r
  rcases reached parts skip op dcs start stop step source stype x0 with ⟨e, h⟩ | ⟨c, rest, i, p, vs, hs, hp, hN, hF, -, -, -, h⟩
  · have h : r = refuse dcs e := h
    rw [h]
    exact ⟨fun i hi => by simp [refuse] at hi, fun _ _ => rfl, fun _ => rfl⟩
  · have h : r = sweep skip (op i) dcs i vs x0 := h
    obtain ⟨h1, h2, h3⟩ := sweep_swept skip (op i) dcs i vs x0
    rw [h]
    refine ⟨?_, ?_, ?_⟩
    · intro k hk
      rw [h1] at hk
      cases hk
      exact ⟨c, rest, p, hs, hp, hN, hF⟩
    · intro j hj
      rw [h1] at hj
      exact h2 j (fun e => hj (by rw [e]))
    · rintro (h' | h')
      · exact h3 h'
      · rw [h1] at h'; cases h'

/-- C157: if there is no such source, no operating point is computed. -/
theorem C157_missing (parts : List Part) (skip : Bool) (op : Nat → Nat → ℝ → Option S → Outcome S)
    (dcs : Nat → ℝ) (start stop step : ℝ) (source stype : String) (x0 : Option S)
    (hm : ∀ c rest, source.toList = c :: rest → ∀ p ∈ parts, ¬ Named c source p) :
    ∃ e, dcFull parts skip op dcs start stop step source stype x0 = refuse dcs e := by
  rcases reached parts skip op dcs start stop step source stype x0 with h | ⟨c, rest, i, p, vs, hs, hp, hN, -⟩
  · exact h
  · exact absurd hN (hm c rest hs p (List.mem_of_getElem? hp))

/-- C157: a source that is there, a step in the right direction and a name beginning with `lin`
in any case: the analysis does what `Sweep.dcAnalysis` (C18, C80) does. -/
theorem C157_linear (parts : List Part) (skip : Bool) (op : Nat → Nat → ℝ → Option S → Outcome S)
    (dcs : Nat → ℝ) (start stop step : ℝ) (source stype : String) (x0 : Option S)
    (ht : (upper stype).take 3 = ['L', 'I', 'N'])
    (hN : ∃ c rest, source.toList = c :: rest ∧ ∃ p ∈ parts, Named c source p) :
    ∃ i, let r := dcFull parts skip op dcs start stop step source stype x0
      let d := dcAnalysis skip (op i) start stop step (dcs i) x0
      r.tried = d.tried ∧ r.out = d.out ∧ r.dcs i = d.dc := by
  obtain ⟨c, rest, hs, p, hp, hNp⟩ := hN
  have hne : ¬ (stype.toList = ['L', 'O', 'G'] ∧ stop - start < 0) := by
    rintro ⟨h, -⟩
    rw [upper, h] at ht
    exact absurd ht (by decide)
  have hc : ¬ (c.toLower ≠ 'v' ∧ c.toLower ≠ 'i') := by
    rw [Ne, Ne, (low_vi c).1, (low_vi c).2]
    rcases hNp.1 with ⟨h, -⟩ | ⟨h, -⟩ <;> simp [h]
  obtain ⟨i, hi⟩ : ∃ i, findSource c.toLower (lower source) parts = some i := by
    cases hf : findSource c.toLower (lower source) parts with
    | some i => exact ⟨i, rfl⟩
    | none =>
      have := findSource_none hf p hp
      rw [(isSource_iff _ _ _).2 hNp] at this
      cases this
  refine ⟨i, ?_⟩
  unfold dcFull dcAnalysis
  rw [hs]
  simp only [if_neg hne]
  split
  · exact ⟨rfl, rfl, rfl⟩
  split
  · exact ⟨rfl, rfl, rfl⟩
  rw [axis, ht, if_neg (by decide), if_pos rfl]
  cases linInit start stop ((stop - start) / step + 1) with
  | none => exact ⟨rfl, rfl, rfl⟩
  | some a =>
    simp only [hi, sweep]
    rcases loop skip (op i) 0 (collect linNext (⌈(stop - start) / step + 1⌉₊ + 2) a) ⟨dcs i, x0, none, [], []⟩ with ⟨s, raised⟩
    simp only
    cases raised with
    | true => simp
    | false =>
      simp only [Bool.false_eq_true, if_false]
      cases s.solved <;> simp

/-- what a sweep that is not refused tries -/
theorem sweep_tried (skip : Bool) (op : Nat → ℝ → Option S → Outcome S) (dcs : Nat → ℝ) (i : Nat)
    (vs : List ℝ) (x0 : Option S) :
    (sweep skip op dcs i vs x0).tried <+: vs ∧
      ((∀ k v x, op k v x ≠ .raises) → (skip = true ∨ ∀ k v x, op k v x ≠ .fails) →
        (sweep skip op dcs i vs x0).tried = vs) := by
  have h : (sweep skip op dcs i vs x0).tried = (loop skip op 0 vs ⟨dcs i, x0, none, [], []⟩).1.tried := by
    unfold sweep
    rcases loop skip op 0 vs ⟨dcs i, x0, none, [], []⟩ with ⟨s, raised⟩
    simp only
    split
    · rfl
    · split <;> rfl
  rw [h]
  obtain ⟨l, hl, e⟩ := loop_tried skip op 0 vs ⟨dcs i, x0, none, [], []⟩
  refine ⟨by rw [e]; simpa using hl, fun hr hf => ?_⟩
  rw [(loop_all skip op hr hf 0 vs _).1]
  simp

/-- the values on a logarithmic axis, for any number of points above one -/
theorem log_values (start stop p : ℝ) (h0 : 0 < start) (h1 : 0 < stop) (hp : 1 < p) :
    collect logNext (⌈p⌉₊ + 2) (logInit start stop p) =
      (List.range ⌈p⌉₊).map (fun i : Nat => start * (stop / start) ^ ((i : ℝ) / (p - 1))) := by
  have hpos : 1 ≤ ⌈p⌉₊ := Nat.one_le_ceil_iff.2 (by linarith)
  rw [log_collect _ 0 (⌈p⌉₊ + 2) rfl (by simp [logInit]) ⌈p⌉₊ (by omega) hpos
      (fun j _ hj => Nat.lt_ceil.1 hj) (Nat.le_ceil p) (by omega)]
  rw [List.range_eq_range', Nat.sub_zero]
  apply List.map_congr_left
  intro i _
  simp only [logInit]
  have e : Real.logb 10 stop - Real.logb 10 start = Real.logb 10 (stop / start) := by
    rw [Real.logb_div h1.ne' h0.ne']
  rw [e, ← Real.rpow_natCast, ← Real.rpow_mul (by norm_num),
    show Real.logb 10 (stop / start) / (p - 1) * (i : ℝ) = Real.logb 10 (stop / start) * ((i : ℝ) / (p - 1)) by ring,
    Real.rpow_mul (by norm_num), Real.rpow_logb (by norm_num) (by norm_num) (div_pos h1 h0)]

/-- C157: a logarithmic sweep (any name beginning with `log`, in any case) between positive
numbers: the values tried are the first of `start * (stop/start)^(i/n)`, `n` the number of steps
from `start` to `stop`; all of them, unless a point raises or, skipping not allowed, fails. -/
theorem C157_log (parts : List Part) (skip : Bool) (op : Nat → Nat → ℝ → Option S → Outcome S)
    (dcs : Nat → ℝ) (start stop step : ℝ) (source stype : String) (x0 : Option S)
    (h0 : 0 < start) (h1 : 0 < stop) (hne : start ≠ stop)
    (ht : (upper stype).take 3 = ['L', 'O', 'G']) :
    let r := dcFull parts skip op dcs start stop step source stype x0
    let vs := (List.range ⌈(stop - start) / step + 1⌉₊).map
      (fun i : Nat => start * (stop / start) ^ ((i : ℝ) / ((stop - start) / step)))
    r.tried <+: vs ∧
      (r.swept ≠ none → (∀ i k v x, op i k v x ≠ .raises) → (skip = true ∨ ∀ i k v x, op i k v x ≠ .fails) →
        r.tried = vs) := by
  intro r vs
  rcases reached parts skip op dcs start stop step source stype x0 with ⟨e, h⟩ | ⟨c, rest, i, p, us, -, -, -, -, hn, hz, hv, h⟩
  · have h : r = refuse dcs e := h
    rw [h]
    exact ⟨List.nil_prefix, fun hs => absurd rfl hs⟩
  · have h : r = sweep skip (op i) dcs i us x0 := h
    have hq : 0 < (stop - start) / step := by
      have e : (stop - start) / step = (stop - start) * step / (step * step) := by field_simp
      rw [e]
      refine div_pos (lt_of_le_of_ne hn ?_) (mul_self_pos.2 hz)
      exact (mul_ne_zero (sub_ne_zero.2 (Ne.symm hne)) hz).symm
    have hu : us = vs := by
      rw [axis, ht, if_pos rfl] at hv
      simp only [Except.ok.injEq] at hv
      rw [← hv, log_values start stop _ h0 h1 (by linarith)]
      simp [vs]
    rw [hu] at h
    obtain ⟨a, b⟩ := sweep_tried skip (op i) dcs i vs x0
    rw [h]
    exact ⟨a, fun _ hr hf => b (hr i) (hf.imp id (fun g => g i))⟩

/-- C157: the values a sweep with a given number of points should have -/
noncomputable def wanted (log : Bool) (start stop : ℝ) (n : Nat) : List ℝ :=
  (List.range n).map (fun i : Nat =>
    if log then start * (stop / start) ^ ((i : ℝ) / ((n : ℝ) - 1))
    else start + (i : ℝ) * ((stop - start) / ((n : ℝ) - 1)))

theorem C157_wanted_ends (log : Bool) (start stop : ℝ) (h0 : log = true → 0 < start ∧ 0 < stop) (n : Nat) (hn : 2 ≤ n) :
    (wanted log start stop n).length = n ∧ (wanted log start stop n)[0]? = some start ∧
      (wanted log start stop n)[n - 1]? = some stop := by
  have hn1 : (n : ℝ) - 1 ≠ 0 := by
    have : (2 : ℝ) ≤ n := by exact_mod_cast hn
    linarith
  have hc : ((n - 1 : Nat) : ℝ) = (n : ℝ) - 1 := by rw [Nat.cast_sub (by omega)]; simp
  refine ⟨by simp [wanted], ?_, ?_⟩
  · cases log <;> simp [wanted, show 0 < n by omega]
  · unfold wanted
    rw [List.getElem?_map, List.getElem?_range (by omega), Option.map_some, hc]
    cases log with
    | false =>
      simp only [Bool.false_eq_true, if_false, Option.some.injEq]
      rw [mul_div_cancel₀ _ hn1]; ring
    | true =>
      obtain ⟨h1, h2⟩ := h0 rfl
      simp only [if_true, Option.some.injEq]
      rw [div_self hn1, Real.rpow_one]
      field_simp

/-- C157: `new_dc` with a number of points of at least two and different end points: a sweep that
is not refused has exactly that number of points, from `start` to `stop` (`C157_wanted_ends`), on a
linear axis equally far from each other, on a logarithmic axis with equal quotients. -/
theorem C157_points (parts : List Part) (skip : Bool) (op : Nat → Nat → ℝ → Option S → Outcome S)
    (dcs : Nat → ℝ) (start stop step : ℝ) (source stype : String) (x0 : Option S) (n : Nat)
    (hn : 2 ≤ n) (hne : start ≠ stop) (hs : newStep start stop n = some step) (log : Bool)
    (ht : (upper stype).take 3 = if log then ['L', 'O', 'G'] else ['L', 'I', 'N'])
    (h0 : log = true → 0 < start ∧ 0 < stop)
    (hr : ∀ i k v x, op i k v x ≠ .raises) (hf : skip = true ∨ ∀ i k v x, op i k v x ≠ .fails)
    (hw : (dcFull parts skip op dcs start stop step source stype x0).swept ≠ none) :
    (dcFull parts skip op dcs start stop step source stype x0).tried = wanted log start stop n := by
  have hn1 : (0 : ℝ) < (n : ℝ) - 1 := by
    have : (2 : ℝ) ≤ n := by exact_mod_cast hn
    linarith
  have hd : stop - start ≠ 0 := sub_ne_zero.2 (Ne.symm hne)
  rw [newStep, if_neg (by omega), Option.some.injEq] at hs
  have hq : (stop - start) / step = (n : ℝ) - 1 := by rw [← hs]; field_simp
  have hN : ⌈(stop - start) / step + 1⌉₊ = n := by rw [hq]; simp
  cases log with
  | true =>
    obtain ⟨a, b⟩ := h0 rfl
    have := (C157_log parts skip op dcs start stop step source stype x0 a b hne (by simpa using ht)).2 hw hr hf
    rw [this, hN, hq]
    simp [wanted]
  | false =>
    rcases reached parts skip op dcs start stop step source stype x0 with ⟨e, h⟩ | ⟨c, rest, i, p, us, -, -, -, -, hg, hz, hv, h⟩
    · rw [h] at hw; exact absurd rfl hw
    · rw [h, (sweep_tried skip (op i) dcs i us x0).2 (hr i) (hf.imp id (fun g => g i))]
      rw [axis, show (upper stype).take 3 = ['L', 'I', 'N'] by simpa using ht, if_neg (by decide), if_pos rfl] at hv
      cases ha : linInit start stop ((stop - start) / step + 1) with
      | none => rw [ha] at hv; simp at hv
      | some a =>
        rw [ha] at hv
        simp only [Except.ok.injEq] at hv
        rw [← hv, axis_values start stop step hg hz a ha, hN, ← hs]
        simp [wanted]

/-- C157: a sweep is not refused if its source is there, the step is in the right direction and
not zero, and the axis is linear with a step not larger than the distance (or no distance), or
logarithmic and not both downwards and spelled `LOG`. -/
theorem C157_accepted (parts : List Part) (skip : Bool) (op : Nat → Nat → ℝ → Option S → Outcome S)
    (dcs : Nat → ℝ) (start stop step : ℝ) (source stype : String) (x0 : Option S)
    (hN : ∃ c rest, source.toList = c :: rest ∧ ∃ p ∈ parts, Named c source p)
    (hd : 0 ≤ (stop - start) * step) (hz : step ≠ 0)
    (ht : ((upper stype).take 3 = ['L', 'I', 'N'] ∧ (|step| ≤ |stop - start| ∨ start = stop)) ∨
      ((upper stype).take 3 = ['L', 'O', 'G'] ∧ ¬ (stype.toList = ['L', 'O', 'G'] ∧ stop < start))) :
    (dcFull parts skip op dcs start stop step source stype x0).swept ≠ none := by
  obtain ⟨c, rest, hs, p, hp, hNp⟩ := hN
  have hne : ¬ (stype.toList = ['L', 'O', 'G'] ∧ stop - start < 0) := by
    rintro ⟨h, h'⟩
    rcases ht with ⟨ht, -⟩ | ⟨-, ht⟩
    · rw [upper, h] at ht
      exact absurd ht (by decide)
    · exact ht ⟨h, by linarith⟩
  have hc : ¬ (c.toLower ≠ 'v' ∧ c.toLower ≠ 'i') := by
    rw [Ne, Ne, (low_vi c).1, (low_vi c).2]
    rcases hNp.1 with ⟨h, -⟩ | ⟨h, -⟩ <;> simp [h]
  obtain ⟨i, hi⟩ : ∃ i, findSource c.toLower (lower source) parts = some i := by
    cases hf : findSource c.toLower (lower source) parts with
    | some i => exact ⟨i, rfl⟩
    | none =>
      have := findSource_none hf p hp
      rw [(isSource_iff _ _ _).2 hNp] at this
      cases this
  obtain ⟨vs, hv⟩ : ∃ vs, axis ((upper stype).take 3) start stop ((stop - start) / step + 1) = .ok vs := by
    rcases ht with ⟨ht, hle⟩ | ⟨ht, -⟩
    · rw [axis, ht, if_neg (by decide), if_pos rfl]
      cases ha : linInit start stop ((stop - start) / step + 1) with
      | some a => exact ⟨_, rfl⟩
      | none =>
        exfalso
        have hq : (stop - start) / step = |stop - start| / |step| := by
          rw [← abs_div, abs_of_nonneg]
          have e : (stop - start) / step = (stop - start) * step / (step * step) := by field_simp
          rw [e]
          exact div_nonneg hd (mul_self_nonneg _)
        rw [C19_refused, hq] at ha
        have hsp := abs_pos.2 hz
        rcases ha with ⟨h1, h2⟩ | h1
        · rcases hle with hle | hle
          · have := (one_le_div hsp).2 hle
            linarith
          · exact h2 hle
        · have : 0 ≤ |stop - start| / |step| := by positivity
          linarith
    · exact ⟨_, by rw [axis, ht, if_pos rfl]⟩
  unfold dcFull
  rw [hs]
  simp only [if_neg hne, if_neg (not_lt.2 hd), if_neg hz, hv, if_neg hc, hi]
  rw [(sweep_swept skip (op i) dcs i vs x0).1]
  simp

/-- C157, against it: the test on the direction of a logarithmic sweep looks at the letters `LOG` in
upper case only, and it ends the program; `log` sweeps downwards. Sweeps from a number to itself
divide by zero, and so does `new_dc` with one point: the documentation promises `None`. -/
theorem C157_refuted (op : Nat → Nat → ℝ → Option Unit → Outcome Unit)
    (ho : ∀ i k v x, op i k v x = .solved ()) :
    let parts : List Part := [⟨"R1", .other⟩, ⟨"V1", .vsource⟩]
    (dcFull parts true op (fun _ => 5) 100 1 (-33) "V1" "LOG" none).out = .error .exit ∧
    (dcFull parts true op (fun _ => 5) 100 1 (-33) "v1" "log" none).tried = wanted true 100 1 4 ∧
    (∀ n, 2 ≤ n → ∀ step, newStep 3 3 n = some step →
      (dcFull parts true op (fun _ => 5) 3 3 step "V1" "LIN" none).out = .error .zeroDivision) ∧
    newStep 3 4 1 = none := by
  intro parts
  refine ⟨?_, ?_, ?_, by simp [newStep]⟩
  · simp [dcFull, refuse]
  · refine C157_points parts true op (fun _ => 5) 100 1 (-33) "v1" "log" none 4 (by norm_num) (by norm_num)
      (by norm_num [newStep]) true (by decide) (by norm_num) (fun i k v x => by rw [ho]; simp) (Or.inl rfl) ?_
    exact C157_accepted parts true op _ 100 1 (-33) "v1" "log" none
      ⟨'v', ['1'], by decide, ⟨"V1", .vsource⟩, by simp [parts], Or.inl ⟨Or.inl rfl, rfl⟩, by decide⟩
      (by norm_num) (by norm_num) (Or.inr ⟨by decide, by simp⟩)
  · intro n hn step hs
    rw [newStep, if_neg (by omega)] at hs
    simp at hs
    subst hs
    simp [dcFull, refuse]

/-! ### Examples -/

/-- a circuit with two sources whose names differ in case, and a resistor with the name of a source -/
def demo : List Part := [⟨"v2", .other⟩, ⟨"V2", .isource⟩, ⟨"r1", .other⟩, ⟨"V1", .vsource⟩, ⟨"v1", .vsource⟩]

example (op : Nat → Nat → ℝ → Option S → Outcome S) : ∃ i p,
    (dcFull demo true op (fun _ => 5) 1 4 1 "v1" "Linear" none).swept = some i ∧ demo[i]? = some p ∧ p.kind = .vsource := by
  have h := C157_accepted demo true op (fun _ => 5) 1 4 1 "v1" "Linear" none
    ⟨'v', ['1'], by decide, ⟨"V1", .vsource⟩, by simp [demo], Or.inl ⟨Or.inl rfl, rfl⟩, by decide⟩
    (by norm_num) (by norm_num) (Or.inl ⟨by decide, Or.inl (by norm_num)⟩)
  obtain ⟨i, hi⟩ := Option.ne_none_iff_exists'.1 h
  obtain ⟨c, rest, p, hs, hp, hN, -⟩ := (C157_source demo true op (fun _ => 5) 1 4 1 "v1" "Linear" none).1 i hi
  refine ⟨i, p, hi, hp, ?_⟩
  have : "v1".toList = ['v', '1'] := by decide
  rw [this] at hs
  cases hs
  rcases hN.1 with ⟨-, h⟩ | ⟨h, -⟩
  · exact h
  · rcases h with h | h <;> exact absurd h (by decide)

example (op : Nat → Nat → ℝ → Option S → Outcome S) : ∃ e,
    dcFull demo true op (fun _ => 5) 1 4 1 "V2" "LIN" none = refuse (fun _ => 5) e := by
  refine C157_missing _ _ _ _ _ _ _ _ _ _ ?_
  intro c rest hs p hp
  have : "V2".toList = ['V', '2'] := by decide
  rw [this] at hs
  cases hs
  simp only [demo, List.mem_cons, List.not_mem_nil, or_false] at hp
  rcases hp with rfl | rfl | rfl | rfl | rfl <;> simp [Named, Letter, lower]

end Verif.DcFront
