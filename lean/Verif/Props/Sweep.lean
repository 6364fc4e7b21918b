import Verif.Model.Sweep
import Verif.Props.Axes

/-!
Properties C18 (DC sweep values and restoration) and C80 (what a sweep returns).
-/

namespace Verif.Sweep

open Verif.Axes

variable {K S : Type} [Field K] [LinearOrder K] [IsStrictOrderedRing K] [FloorRing K]

/-- Values on the axis of a sweep with `start != stop`. -/
theorem axis_values (start stop step : K) (h0 : 0 ≤ (stop - start) * step) (hs : step ≠ 0)
    (a : Axis K) (ha : linInit start stop ((stop - start) / step + 1) = some a) :
    collect linNext (⌈(stop - start) / step + 1⌉₊ + 2) a =
      (List.range ⌈(stop - start) / step + 1⌉₊).map (fun i : Nat => start + (i : K) * step) := by
  have hq : 0 ≤ (stop - start) / step := by
    have : (stop - start) / step = (stop - start) * step / (step * step) := by field_simp
    rw [this]
    exact div_nonneg h0 (mul_self_nonneg _)
  generalize hp : (stop - start) / step + 1 = p at *
  have hp1 : 1 ≤ p := by linarith
  unfold linInit at ha
  split at ha
  · cases ha
  · rw [if_neg (by linarith)] at ha
    rename_i hc
    simp only [Option.some.injEq] at ha
    have hpos : 1 ≤ ⌈p⌉₊ := Nat.one_le_ceil_iff.2 (by linarith)
    have key := lin_collect a 0 (⌈p⌉₊ + 2) (by rw [← ha]) (by rw [← ha]; simp) ⌈p⌉₊ (by omega)
      hpos (fun j _ hj => by rw [← ha]; exact Nat.lt_ceil.1 hj) (by rw [← ha]; exact Nat.le_ceil p)
      (by omega)
    rw [key, List.range_eq_range', Nat.sub_zero]
    rw [← ha]
    simp only
    by_cases hgt : p > 1
    · rw [if_pos hgt]
      have hinc : (stop - start) / (p - 1) = step := by
        have hd : (stop - start) / step = p - 1 := by linarith
        have hne : stop - start ≠ 0 := by
          intro h; rw [h] at hd; simp at hd; linarith
        rw [← hd]; field_simp
      rw [hinc]
    · have hp' : p = 1 := le_antisymm (not_lt.1 hgt) hp1
      rw [if_neg hgt, hp']
      simp

omit [Field K] [LinearOrder K] [IsStrictOrderedRing K] [FloorRing K] in
/-- The loop only ever tries values from the axis, in order, and leaves the source at the
last one it tried. -/
theorem loop_tried (skip : Bool) (op : Nat → K → Option S → Outcome S) (k : Nat) (vs : List K)
    (s : State K S) : ∃ l, l <+: vs ∧ (loop skip op k vs s).1.tried = s.tried ++ l := by
  induction vs generalizing k s with
  | nil => exact ⟨[], List.prefix_refl _, by simp [loop]⟩
  | cons v vs ih =>
    unfold loop
    simp only
    cases h : op k v s.x with
    | raises => exact ⟨[v], by simp, by simp⟩
    | fails =>
      simp only
      split
      · obtain ⟨l, hl, e⟩ := ih (k + 1) { s with dc := v, x := none, tried := s.tried ++ [v] }
        exact ⟨v :: l, by simpa using hl, by rw [e]; simp⟩
      · exact ⟨[v], by simp, by simp⟩
    | solved x =>
      simp only
      obtain ⟨l, hl, e⟩ := ih (k + 1) { s with
        dc := v, x := some x, solved := some true, recd := s.recd ++ [(v, x)],
        tried := s.tried ++ [v] }
      exact ⟨v :: l, by simpa using hl, by rw [e]; simp⟩

omit [Field K] [LinearOrder K] [IsStrictOrderedRing K] [FloorRing K] in
/-- If no point raises, and no point fails or failing points are skipped, every value on the
axis is tried. -/
theorem loop_all (skip : Bool) (op : Nat → K → Option S → Outcome S)
    (hr : ∀ k v x, op k v x ≠ .raises) (hf : skip = true ∨ ∀ k v x, op k v x ≠ .fails)
    (k : Nat) (vs : List K) (s : State K S) :
    (loop skip op k vs s).1.tried = s.tried ++ vs ∧ (loop skip op k vs s).2 = false := by
  induction vs generalizing k s with
  | nil => simp [loop]
  | cons v vs ih =>
    unfold loop
    simp only
    cases h : op k v s.x with
    | raises => exact absurd h (hr _ _ _)
    | fails =>
      rcases hf with hf | hf
      · simp only [hf, if_true]
        rw [hf] at ih
        have := ih (k + 1) { s with dc := v, x := none, tried := s.tried ++ [v] }
        simpa using this
      · exact absurd h (hf _ _ _)
    | solved x =>
      simp only
      have := ih (k + 1) { s with
        dc := v, x := some x, solved := some true, recd := s.recd ++ [(v, x)],
        tried := s.tried ++ [v] }
      simpa using this

/-- The list of sweep values the documentation promises: from `start` by `step`. -/
def grid (start step : K) (n : Nat) : List K :=
  (List.range n).map (fun i : Nat => start + (i : K) * step)

/-- C18 (part): whatever happens at the individual points, the values tried are `start`,
`start+step`, ... in this order, and none lies a whole step or more beyond `stop`. -/
theorem C18_values_partial (skip : Bool) (op : Nat → K → Option S → Outcome S)
    (start stop step dc0 : K) (x0 : Option S) :
    ∃ n, (dcAnalysis skip op start stop step dc0 x0).tried = grid start step n ∧
      ∀ v ∈ (dcAnalysis skip op start stop step dc0 x0).tried,
        |v - start| < |stop - start| + |step| := by
  unfold dcAnalysis
  split
  · exact ⟨0, by simp [grid], by simp⟩
  rename_i h0
  split
  · exact ⟨0, by simp [grid], by simp⟩
  rename_i hs
  simp only
  cases ha : linInit start stop ((stop - start) / step + 1) with
  | none => exact ⟨0, by simp [grid], by simp⟩
  | some a =>
    simp only
    rw [axis_values start stop step (not_lt.1 h0) hs a ha]
    generalize hN : ⌈(stop - start) / step + 1⌉₊ = N
    obtain ⟨l, hl, e⟩ := loop_tried skip op 0
      ((List.range N).map (fun i : Nat => start + (i : K) * step)) ⟨dc0, x0, none, [], []⟩
    have key : ∃ n, l = grid start step n ∧ n ≤ N := by
      refine ⟨l.length, ?_, ?_⟩
      · rw [List.prefix_iff_eq_take.1 hl]
        simp only [grid, ← List.map_take, List.take_range, List.length_map, List.length_range]
      · simpa using hl.length_le
    obtain ⟨n, hn, hnN⟩ := key
    have hb : ∀ v ∈ l, |v - start| < |stop - start| + |step| := by
      intro v hv
      rw [hn, grid] at hv
      obtain ⟨i, hi, rfl⟩ := List.mem_map.1 hv
      rw [List.mem_range] at hi
      have hi' : (i : K) < (stop - start) / step + 1 := by
        apply Nat.lt_ceil.1; rw [hN]; omega
      have hq : 0 ≤ (stop - start) / step := by
        have : (stop - start) / step = (stop - start) * step / (step * step) := by field_simp
        rw [this]
        exact div_nonneg (not_lt.1 h0) (mul_self_nonneg _)
      have habs : |(stop - start)| = (stop - start) / step * |step| := by
        rw [← abs_of_nonneg hq, ← abs_mul, div_mul_cancel₀ _ hs]
      have hpos : 0 < |step| := abs_pos.2 hs
      rw [add_sub_cancel_left, abs_mul, abs_of_nonneg (by positivity : (0 : K) ≤ i), habs]
      nlinarith
    simp only [List.nil_append] at e
    refine ⟨n, ?_, ?_⟩
    · split
      · rw [← hn]; exact e
      · split <;> (rw [← hn]; exact e)
    · split
      · simp only; rw [e]; exact hb
      · split <;> (simp only; rw [e]; exact hb)

/-- C18 (part): when the step divides the range, an undisturbed sweep visits exactly
`start, start+step, ..., stop`. -/
theorem C18_exact_multiple_partial (skip : Bool) (op : Nat → K → Option S → Outcome S)
    (hr : ∀ k v x, op k v x ≠ .raises) (hf : skip = true ∨ ∀ k v x, op k v x ≠ .fails)
    (start step dc0 : K) (n : Nat) (hs : step ≠ 0) (x0 : Option S) :
    (dcAnalysis skip op start (start + n * step) step dc0 x0).tried = grid start step (n + 1) := by
  have hdiv : (start + n * step - start) / step + 1 = ((n + 1 : Nat) : K) := by
    push_cast; field_simp; ring
  have h0 : 0 ≤ (start + n * step - start) * step := by
    have : (start + n * step - start) * step = n * (step * step) := by ring
    rw [this]
    exact mul_nonneg (by positivity) (mul_self_nonneg _)
  unfold dcAnalysis
  rw [if_neg (not_lt.2 h0), if_neg hs]
  simp only
  cases ha : linInit start (start + n * step) ((start + n * step - start) / step + 1) with
  | none =>
    exfalso
    rw [C19_refused, hdiv] at ha
    rcases ha with ⟨h1, h2⟩ | h1
    · have : n = 0 := by
        have : ((n + 1 : Nat) : K) < ((2 : Nat) : K) := by exact_mod_cast h1
        have := Nat.cast_lt.1 this
        omega
      subst this
      simp at h2
    · have : ((n + 1 : Nat) : K) < ((1 : Nat) : K) := by exact_mod_cast h1
      have := Nat.cast_lt.1 this
      omega
  | some a =>
    simp only
    rw [axis_values start _ step h0 hs a ha, hdiv, Nat.ceil_natCast]
    obtain ⟨h1, h2⟩ := loop_all skip op hr hf 0
      ((List.range (n + 1)).map (fun i : Nat => start + (i : K) * step)) ⟨dc0, x0, none, [], []⟩
    rw [h2]
    simp only [List.nil_append] at h1
    simp only [Bool.false_eq_true, if_false]
    split <;> exact h1

/-- C18 (part): with a step dividing the range no value lies outside `start..stop`, whatever
happens at the points. -/
theorem C18_within_partial (skip : Bool) (op : Nat → K → Option S → Outcome S)
    (start step dc0 : K) (n : Nat) (x0 : Option S) :
    ∀ v ∈ (dcAnalysis skip op start (start + n * step) step dc0 x0).tried,
      ∃ i ≤ n, v = start + (i : Nat) * step := by
  intro v hv
  obtain ⟨m, hm, hb⟩ := C18_values_partial skip op start (start + n * step) step dc0 x0
  have hlt := hb v hv
  rw [hm, grid] at hv
  obtain ⟨i, -, rfl⟩ := List.mem_map.1 hv
  by_cases hs : step = 0
  · exact ⟨0, Nat.zero_le _, by simp [hs]⟩
  · refine ⟨i, ?_, rfl⟩
    rw [add_sub_cancel_left, add_sub_cancel_left, abs_mul, abs_mul,
      abs_of_nonneg (by positivity : (0 : K) ≤ i), abs_of_nonneg (by positivity : (0 : K) ≤ n)] at hlt
    have hpos : 0 < |step| := abs_pos.2 hs
    have : (i : K) < (n : K) + 1 := by
      by_contra hc
      have := mul_le_mul_of_nonneg_right (not_lt.1 hc) hpos.le
      nlinarith
    have : i < n + 1 := by exact_mod_cast this
    omega

omit [IsStrictOrderedRing K] in
/-- C18 (part): when the analysis returns, or refuses its arguments, the source has its
original value. -/
theorem C18_restored_partial (skip : Bool) (op : Nat → K → Option S → Outcome S)
    (start stop step dc0 : K) (x0 : Option S)
    (h : (∃ r, (dcAnalysis skip op start stop step dc0 x0).out = .ok r) ∨
      (dcAnalysis skip op start stop step dc0 x0).out = .error .valueError ∨
      (dcAnalysis skip op start stop step dc0 x0).out = .error .zeroDivision) :
    (dcAnalysis skip op start stop step dc0 x0).dc = dc0 := by
  unfold dcAnalysis at h ⊢
  split
  · rfl
  rename_i h0
  rw [if_neg h0] at h
  split
  · rfl
  rename_i hs
  rw [if_neg hs] at h
  simp only at h ⊢
  split
  · rfl
  · rename_i a ha
    rw [ha] at h
    simp only at h
    split
    · rename_i hr
      rw [if_pos hr] at h
      simp at h
    · rename_i hr
      rw [if_neg hr] at h
      split
      · rename_i hn
        rw [hn] at h
        simp at h
      · rfl

/-- An operating point that always succeeds. -/
def fine : Nat → K → Option Unit → Outcome Unit := fun _ _ _ => .solved ()

/-- C18 is false: `0..1` by `3/10` goes on to `12/10`; a step wider than the range is
refused instead of visiting `start`; when an operating point raises, or when every point
is skipped, the source keeps the last swept value. -/
theorem C18_refuted :
    (dcAnalysis (K := ℚ) true fine 0 1 (3/10) 7 none).tried = [0, 3/10, 6/10, 9/10, 12/10] ∧
    (dcAnalysis (K := ℚ) true fine 0 1 2 7 none).out = .error .valueError ∧
    (dcAnalysis (K := ℚ) true (fun k v _ => if k = 1 then .raises else .solved v) 0 2 1 7 none).dc = 1 ∧
    (dcAnalysis (K := ℚ) (S := Unit) true (fun _ _ _ => .fails) 0 2 1 7 none).dc = 2 ∧
    (dcAnalysis (K := ℚ) (S := Unit) true (fun _ _ _ => .fails) 0 2 1 7 none).out = .error .unbound := by
  refine ⟨?_, ?_, ?_, ?_, ?_⟩ <;> decide +kernel

example : (dcAnalysis (K := ℚ) true fine 5 1 (-2) 7 none).tried = [5, 3, 1] ∧
    (dcAnalysis (K := ℚ) true fine 5 1 (-2) 7 none).dc = 7 := by decide +kernel

omit [Field K] [LinearOrder K] [IsStrictOrderedRing K] [FloorRing K] in
/-- Invariant of the loop: what is recorded is what the operating point returned, at values
that were tried; `solved` tells whether something was recorded, unless the loop stopped
early. -/
theorem loop_rec (op : Nat → K → Option S → Outcome S) (hr : ∀ k v x, op k v x ≠ .raises)
    (k : Nat) (vs : List K) (s : State K S)
    (hs : (s.solved = some true ∧ s.recd ≠ []) ∨ (s.solved = none ∧ s.recd = [])) :
    let r := (loop true op k vs s).1
    (r.solved = some true ∧ r.recd ≠ []) ∨ (r.solved = none ∧ r.recd = []) := by
  induction vs generalizing k s with
  | nil => simpa [loop] using hs
  | cons v vs ih =>
    unfold loop
    simp only
    cases h : op k v s.x with
    | raises => exact absurd h (hr _ _ _)
    | fails => exact ih (k + 1) _ (by simpa using hs)
    | solved x => exact ih (k + 1) _ (Or.inl (by simp))

omit [Field K] [LinearOrder K] [IsStrictOrderedRing K] [FloorRing K] in
theorem loop_mem (skip : Bool) (op : Nat → K → Option S → Outcome S)
    (k : Nat) (vs : List K) (s : State K S)
    (hs : ∀ p ∈ s.recd, p.1 ∈ s.tried ∧ ∃ j x, op j p.1 x = .solved p.2) :
    ∀ p ∈ (loop skip op k vs s).1.recd,
      p.1 ∈ (loop skip op k vs s).1.tried ∧ ∃ j x, op j p.1 x = .solved p.2 := by
  induction vs generalizing k s with
  | nil => simpa [loop] using hs
  | cons v vs ih =>
    have hs' : ∀ p ∈ s.recd, p.1 ∈ s.tried ++ [v] ∧ ∃ j x, op j p.1 x = .solved p.2 :=
      fun p hp => ⟨List.mem_append_left _ (hs p hp).1, (hs p hp).2⟩
    unfold loop
    simp only
    cases h : op k v s.x with
    | raises => exact hs'
    | fails =>
      simp only
      split
      · exact ih (k + 1) _ hs'
      · exact hs'
    | solved x =>
      refine ih (k + 1) _ ?_
      intro p hp
      simp only [List.mem_append, List.mem_singleton] at hp
      rcases hp with hp | rfl
      · exact hs' p hp
      · exact ⟨by simp, _, _, h⟩

omit [IsStrictOrderedRing K] in
/-- C80 (part): every point of the returned solution is a value that was tried together
with what the operating point returned for it. -/
theorem C80_points_genuine (skip : Bool) (op : Nat → K → Option S → Outcome S)
    (start stop step dc0 : K) (x0 : Option S) (pts : List (K × S))
    (h : (dcAnalysis skip op start stop step dc0 x0).out = .ok (some pts)) :
    ∀ p ∈ pts, p.1 ∈ (dcAnalysis skip op start stop step dc0 x0).tried ∧
      ∃ j x, op j p.1 x = .solved p.2 := by
  unfold dcAnalysis at h ⊢
  split at h
  · simp at h
  rename_i h0
  rw [if_neg h0]
  split at h
  · simp at h
  rename_i hs
  rw [if_neg hs]
  simp only at h ⊢
  split at h
  · simp at h
  · rename_i a ha
    split at h
    · simp at h
    · rename_i hr
      rw [if_neg hr]
      split at h
      · simp at h
      · rename_i b hb
        simp only [Except.ok.injEq] at h
        simp only
        cases b
        · simp at h
        · simp only [if_true, Option.some.injEq] at h
          rw [← h]
          exact loop_mem skip op 0 _ _ (by simp)

omit [IsStrictOrderedRing K] in
/-- C80 (part): when failing points are skipped and no point raises, a sweep that got as far
as its loop returns a solution exactly if some point was solved, and it is never empty. -/
theorem C80_skip_partial (op : Nat → K → Option S → Outcome S) (hr : ∀ k v x, op k v x ≠ .raises)
    (start stop step dc0 : K) (x0 : Option S) (r : Option (List (K × S)))
    (h : (dcAnalysis true op start stop step dc0 x0).out = .ok r) :
    ∃ pts, r = some pts ∧ pts ≠ [] := by
  unfold dcAnalysis at h
  split at h
  · simp at h
  split at h
  · simp at h
  simp only at h
  split at h
  · simp at h
  · rename_i a ha
    split at h
    · simp at h
    · rcases loop_rec op hr 0 (collect linNext (⌈(stop - start) / step + 1⌉₊ + 2) a)
        ⟨dc0, x0, none, [], []⟩ (Or.inr ⟨rfl, rfl⟩) with ⟨h1, h2⟩ | ⟨h1, h2⟩
      · rw [h1] at h
        simp only [if_true, Except.ok.injEq] at h
        exact ⟨_, h.symm, h2⟩
      · rw [h1] at h
        simp at h

/-- C80 is false: without skipping, one failing point throws the points before it away;
with skipping, a sweep without any solved point raises instead of returning `None`. -/
theorem C80_refuted :
    (dcAnalysis (K := ℚ) (S := Unit) false (fun k _ _ => if k = 2 then .fails else .solved ())
      0 2 1 7 none).out = .ok none ∧
    (dcAnalysis (K := ℚ) (S := Unit) true (fun _ _ _ => .fails) 0 2 1 7 none).out = .error .unbound := by
  constructor <;> decide +kernel

end Verif.Sweep
