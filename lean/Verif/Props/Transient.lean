import Verif.Model.Transient
import Mathlib.Algebra.Order.Archimedean.Basic
import Mathlib.Data.Rat.Floor
import Mathlib.Tactic.Linarith
import Mathlib.Tactic.FieldSimp
import Mathlib.Tactic.Ring
import Mathlib.Tactic.NormNum
import Mathlib.Tactic.Positivity

/-!
Properties C26 (times) and C27 (steps) of the transient loop.
-/

namespace Verif.Transient

variable {K : Type} [Field K] [LinearOrder K] [IsStrictOrderedRing K]

/-- Settings for which the analysis makes sense. -/
structure Sane (c : Cfg K) : Prop where
  range : c.tstart < c.tstop
  hmax : 0 < c.hmax
  hmin : 0 < c.hmin

omit [IsStrictOrderedRing K] in
theorem checkStep_le (c : Cfg K) (h t r : K) (e : checkStep c h t = some r) :
    r ≤ c.hmax ∧ r ≤ h := by
  unfold checkStep at e
  simp only at e
  split at e
  · split at e
    · rename_i h1 h2
      cases e
      exact ⟨h2.le, h2.le.trans h1.le⟩
    · rename_i h1 h2
      split at e
      · cases e
      · cases e; exact ⟨le_refl _, h1.le⟩
  · split at e
    · rename_i h1 h2
      cases e
      exact ⟨h2.le.trans (not_lt.1 h1), h2.le⟩
    · rename_i h1 h2
      split at e
      · cases e
      · cases e; exact ⟨not_lt.1 h1, le_refl _⟩

theorem checkStep_pos (c : Cfg K) (hc : Sane c) (h t r : K) (ht : t < c.tstop)
    (e : checkStep c h t = some r) : 0 < r := by
  unfold checkStep at e
  simp only at e
  generalize (if h > c.hmax then c.hmax else h) = g at e
  split at e
  · cases e; linarith
  · split at e
    · cases e
    · rename_i h2
      cases e
      exact lt_of_lt_of_le hc.hmin (not_lt.1 h2)

theorem stepCoeff_le (f : List K) : stepCoeff f ≤ 2 := by
  have : ∀ (f : List K) (m : K), f.foldl (fun m v => if v < m then v else m) m ≤ m := by
    intro f
    induction f with
    | nil => intro m; exact le_refl _
    | cons a f ih =>
      intro m
      simp only [List.foldl_cons]
      refine (ih _).trans ?_
      split
      · rename_i h; exact h.le
      · exact le_refl _
  exact this f 2

/-- Invariant of the loop: the current step is positive and at most `HMAX`, the recorded
times increase strictly after `tstart` and end at the current time, every recorded time is
less than `HMAX` beyond `tstop`, and all steps tried were positive and at most `HMAX`. -/
structure Inv (c : Cfg K) (s : St K) : Prop where
  pos : 0 < s.tstep
  le : s.tstep ≤ c.hmax
  incr : (c.tstart :: s.times).Pairwise (· < ·)
  last : (c.tstart :: s.times).getLast? = some s.time
  over : ∀ t ∈ s.times, t < c.tstop + c.hmax
  tried : ∀ h ∈ s.tried, 0 < h ∧ h ≤ c.hmax

/-- Appending a larger element keeps a list strictly increasing. -/
theorem pairwise_snoc (l : List K) (t u : K) (h : l.Pairwise (· < ·)) (hl : l.getLast? = some t)
    (htu : t < u) : (l ++ [u]).Pairwise (· < ·) := by
  rw [List.pairwise_append]
  refine ⟨h, by simp, ?_⟩
  intro a ha b hb
  simp only [List.mem_singleton] at hb
  subst hb
  obtain ⟨l', rfl⟩ := List.getLast?_eq_some_iff.1 hl
  rcases List.mem_append.1 ha with ha | ha
  · exact ((List.pairwise_append.1 h).2.2 a ha t (by simp)).trans htu
  · simp only [List.mem_singleton] at ha; rw [ha]; exact htu

theorem accept_inv (c : Cfg K) (s : St K) (hi : Inv c s) (ht : s.time < c.tstop) (h : K)
    (hp : 0 < h) (hle : h ≤ c.hmax) : Inv c (accept c s h).st ∧
      (∀ s', accept c s h ≠ .finished s') := by
  have key : Inv c { s with time := s.time + s.tstep, tstep := h, iter := s.iter + 1,
                            times := s.times ++ [s.time + s.tstep] } := by
    refine ⟨hp, hle, ?_, ?_, ?_, hi.tried⟩
    · have := pairwise_snoc (c.tstart :: s.times) s.time (s.time + s.tstep) hi.incr hi.last
        (by linarith [hi.pos])
      simpa using this
    · simp only
      rw [← List.cons_append]
      exact List.getLast?_concat ..
    · intro t hts
      rcases List.mem_append.1 hts with hts | hts
      · exact hi.over t hts
      · simp only [List.mem_singleton] at hts
        rw [hts]
        linarith [hi.le]
  unfold accept
  simp only
  split
  · exact ⟨key, by simp⟩
  · exact ⟨key, by simp⟩

theorem pass_inv (c : Cfg K) (hc : Sane c) (s : St K) (hi : Inv c s) (ht : s.time < c.tstop)
    (o : Outcome K) : Inv c (pass c s o).st ∧ (∀ s', pass c s o ≠ .finished s') := by
  have hi' : Inv c { s with tried := s.tried ++ [s.tstep] } := by
    refine ⟨hi.pos, hi.le, hi.incr, hi.last, hi.over, ?_⟩
    intro h hh
    rcases List.mem_append.1 hh with hh | hh
    · exact hi.tried h hh
    · simp only [List.mem_singleton] at hh
      rw [hh]; exact ⟨hi.pos, hi.le⟩
  have upd : ∀ h, 0 < h → h ≤ c.hmax →
      Inv c { s with tried := s.tried ++ [s.tstep], tstep := h } := fun h h1 h2 =>
    ⟨h1, h2, hi'.incr, hi'.last, hi'.over, hi'.tried⟩
  unfold pass
  simp only
  split
  · exact accept_inv c _ hi' ht _ hi.pos hi.le
  · rename_i f
    split
    · split
      · split
        · exact ⟨hi', by simp⟩
        · rename_i h hh
          exact ⟨upd h (checkStep_pos c hc _ _ _ ht hh) (checkStep_le c _ _ _ hh).1, by simp⟩
      · split
        · exact ⟨hi', by simp⟩
        · rename_i h hh
          exact accept_inv c _ hi' ht h (checkStep_pos c hc _ _ _ ht hh) (checkStep_le c _ _ _ hh).1
    · exact accept_inv c _ hi' ht _ hi.pos hi.le
  · split
    · split
      · exact ⟨hi', by simp⟩
      · rename_i h hh
        split
        · exact ⟨upd h (checkStep_pos c hc _ _ _ ht hh) (checkStep_le c _ _ _ hh).1, by simp⟩
        · exact ⟨upd h (checkStep_pos c hc _ _ _ ht hh) (checkStep_le c _ _ _ hh).1, by simp⟩
    · exact ⟨hi', by simp⟩

theorem start_inv (c : Cfg K) (hc : Sane c) : Inv c (start c) := by
  refine ⟨?_, ?_, by simp [start], by simp [start], by simp [start], by simp [start]⟩
  · unfold start
    simp only
    split
    · exact lt_min (div_pos (sub_pos.2 hc.range) (by norm_num)) hc.hmax
    · exact hc.hmax
  · unfold start
    simp only
    split
    · exact min_le_right _ _
    · exact le_refl _

theorem run_inv (c : Cfg K) (hc : Sane c) (os : List (Outcome K)) (s : St K) (hi : Inv c s) :
    Inv c (run c os s).st ∧ ∀ s', run c os s = .finished s' → c.tstop ≤ s'.time := by
  induction os generalizing s with
  | nil =>
    unfold run
    split
    · exact ⟨hi, by simp⟩
    · rename_i h
      refine ⟨hi, ?_⟩
      intro s' hs'
      cases hs'
      exact not_lt.1 h
  | cons o os ih =>
    unfold run
    split
    · rename_i ht
      simp only
      have hp := pass_inv c hc s hi ht o
      split
      · rename_i s' hs'
        rw [hs'] at hp
        exact ih s' hp.1
      · refine ⟨hp.1, ?_⟩
        intro s' hs'
        exact absurd hs' (hp.2 s')
    · rename_i h
      refine ⟨hi, ?_⟩
      intro s' hs'
      cases hs'
      exact not_lt.1 h

/-- C26 (part): whatever the solver and the error estimator do, the recorded times are
strictly increasing, all lie after `tstart`, and none lies `HMAX` or more beyond `tstop`;
when the loop ends normally the last recorded time has reached `tstop`. -/
theorem C26_times_partial (c : Cfg K) (hc : Sane c) (os : List (Outcome K)) :
    let s := (run c os (start c)).st
    s.times.Pairwise (· < ·) ∧ (∀ t ∈ s.times, c.tstart < t ∧ t < c.tstop + c.hmax) ∧
    (∀ s', run c os (start c) = .finished s' → ∃ t, s'.times.getLast? = some t ∧ c.tstop ≤ t) := by
  obtain ⟨hi, hf⟩ := run_inv c hc os (start c) (start_inv c hc)
  intro s
  have hp := List.pairwise_cons.1 hi.incr
  refine ⟨hp.2, fun t ht => ⟨hp.1 t ht, hi.over t ht⟩, ?_⟩
  intro s' hs'
  have hle := hf s' hs'
  rw [hs'] at hi
  have hl := hi.last
  change (c.tstart :: s'.times).getLast? = some s'.time at hl
  cases htimes : s'.times with
  | nil =>
    rw [htimes] at hl
    simp only [List.getLast?_singleton, Option.some.injEq] at hl
    have := hc.range
    rw [hl] at this
    exact absurd this (not_lt.2 hle)
  | cons a l =>
    rw [htimes, List.getLast?_cons_cons] at hl
    exact ⟨s'.time, hl, hle⟩

/-- C27: every step tried is positive and not longer than the maximum step. -/
theorem C27_steps_bounded (c : Cfg K) (hc : Sane c) (os : List (Outcome K)) :
    ∀ h ∈ (run c os (start c)).st.tried, 0 < h ∧ h ≤ c.hmax :=
  (run_inv c hc os (start c) (start_inv c hc)).1.tried

/-- C27: one pass makes the step at most twice as long. -/
theorem C27_growth (c : Cfg K) (s s' : St K) (hs : 0 < s.tstep) (o : Outcome K)
    (h : pass c s o = .running s') : s'.tstep ≤ 2 * s.tstep := by
  have acc : ∀ (s1 : St K) (k : K), accept c s1 k = .running s' → s'.tstep = k := by
    intro s1 k hk
    unfold accept at hk
    simp only at hk
    split at hk
    · cases hk
    · cases hk; rfl
  unfold pass at h
  simp only at h
  split at h
  · rw [acc _ _ h]; linarith
  · rename_i f
    have hk : s.tstep * stepCoeff f ≤ 2 * s.tstep := by
      rw [mul_comm]
      exact mul_le_mul_of_nonneg_right (stepCoeff_le f) hs.le
    split at h
    · split at h
      · split at h
        · cases h
        · rename_i k hk'
          cases h
          exact (checkStep_le c _ _ _ hk').2.trans hk
      · split at h
        · cases h
        · rename_i k hk'
          rw [acc _ _ h]
          exact (checkStep_le c _ _ _ hk').2.trans hk
    · rw [acc _ _ h]; linarith
  · split at h
    · split at h
      · cases h
      · rename_i k hk'
        have := (checkStep_le c _ _ _ hk').2
        split at h
        · cases h
        · cases h
          simp only
          have h5 : s.tstep / 5 ≤ s.tstep := by
            rw [div_le_iff₀ (by norm_num)]; linarith
          linarith
    · cases h

/-- A pass that does not record a point and does not stop. -/
def Rejects (c : Cfg K) (s : St K) (o : Outcome K) (s' : St K) : Prop :=
  pass c s o = .running s' ∧ s'.times = s.times

/-- A rejection shrinks the step by the larger of the threshold and one fifth, and keeps it
at least `hmin`, unless the remaining time is shorter than the shrunk step. -/
theorem reject_shrinks (c : Cfg K) (s s' : St K) (o : Outcome K) (hs : 0 < s.tstep)
    (h : Rejects c s o s') :
    s'.tstep ≤ s.tstep * max c.thr (1/5) ∧ s'.time = s.time ∧
      (c.hmin ≤ s'.tstep ∨ s'.tstep = c.tstop - s.time) := by
  have acc : ∀ (s1 : St K) (k : K), s1.times = s.times → accept c s1 k = .running s' → False := by
    intro s1 k h1 hk
    unfold accept at hk
    simp only at hk
    split at hk
    · cases hk
    · cases hk
      have := h.2
      simp only [h1] at this
      have := congrArg List.length this
      simp at this
  have cs : ∀ k r, checkStep c k s.time = some r → c.hmin ≤ r ∨ r = c.tstop - s.time := by
    intro k r e
    unfold checkStep at e
    simp only at e
    generalize (if k > c.hmax then c.hmax else k) = g at e
    split at e
    · cases e; exact Or.inr rfl
    · split at e
      · cases e
      · rename_i h2; cases e; exact Or.inl (not_lt.1 h2)
  have hp := h.1
  unfold pass at hp
  simp only at hp
  split at hp
  · exact (acc { s with tried := s.tried ++ [s.tstep] } _ rfl hp).elim
  · rename_i f
    split at hp
    · split at hp
      · rename_i hthr
        split at hp
        · cases hp
        · rename_i k hk
          cases hp
          refine ⟨(checkStep_le c _ _ _ hk).2.trans ?_, rfl, cs _ _ hk⟩
          exact mul_le_mul_of_nonneg_left (hthr.2.le.trans (le_max_left _ _)) hs.le
      · split at hp
        · cases hp
        · exact (acc { s with tried := s.tried ++ [s.tstep] } _ rfl hp).elim
    · exact (acc { s with tried := s.tried ++ [s.tstep] } _ rfl hp).elim
  · split at hp
    · split at hp
      · cases hp
      · rename_i k hk
        have hle := (checkStep_le c _ _ _ hk).2
        split at hp
        · cases hp
        · cases hp
          refine ⟨hle.trans ?_, rfl, cs _ _ hk⟩
          have : s.tstep * (1/5) ≤ s.tstep * max c.thr (1/5) :=
            mul_le_mul_of_nonneg_left (le_max_right _ _) hs.le
          linarith [show s.tstep / 5 = s.tstep * (1/5) by ring]
    · cases hp

/-- A chain of consecutive rejections. -/
inductive Chain (c : Cfg K) : St K → Nat → St K → Prop
  | zero (s) : Chain c s 0 s
  | step {s s' s'' n} (o : Outcome K) : Chain c s n s' → Rejects c s' o s'' → Chain c s (n + 1) s''

theorem chain_shrinks (c : Cfg K) (hc : Sane c) (s s' : St K) (n : Nat) (hi : Inv c s)
    (ht : s.time < c.tstop) (h : Chain c s n s') :
    Inv c s' ∧ s'.time = s.time ∧ s'.tstep ≤ s.tstep * max c.thr (1/5) ^ n := by
  induction h with
  | zero => exact ⟨hi, rfl, by simp⟩
  | step o hch hr ih =>
    obtain ⟨h1, h2, h3⟩ := ih
    have ht' : _ < c.tstop := h2 ▸ ht
    obtain ⟨r1, r2, -⟩ := reject_shrinks c _ _ o h1.pos hr
    have hinv := (pass_inv c hc _ h1 ht' o).1
    rw [hr.1] at hinv
    refine ⟨hinv, r2.trans h2, r1.trans ?_⟩
    rw [pow_succ, ← mul_assoc]
    exact mul_le_mul_of_nonneg_right h3 (le_trans (by norm_num) (le_max_right _ _))

/-- C27: with a threshold below one, the number of consecutive rejections at one time point
is bounded, by a number that depends only on the settings and the remaining time: after that
the analysis raises, halts or records a point. -/
theorem C27_finite_rejections [Archimedean K] (c : Cfg K) (hc : Sane c) (hthr : c.thr < 1)
    (s : St K) (hi : Inv c s) (ht : s.time < c.tstop) :
    ∃ N, ∀ n s', Chain c s n s' → n ≤ N := by
  have hr1 : max c.thr (1/5) < 1 := max_lt hthr (by norm_num)
  have hr0 : 0 < max c.thr (1/5) := lt_of_lt_of_le (by norm_num) (le_max_right _ _)
  -- a bound that every step after a rejection respects
  have hlow : 0 < min c.hmin (c.tstop - s.time) := lt_min hc.hmin (by linarith)
  obtain ⟨N, hN⟩ := exists_pow_lt_of_lt_one (div_pos hlow hc.hmax) hr1
  refine ⟨N, ?_⟩
  intro n s' hch
  by_contra hlt
  push Not at hlt
  obtain ⟨-, -, h3⟩ := chain_shrinks c hc s s' n hi ht hch
  have hge : min c.hmin (c.tstop - s.time) ≤ s'.tstep := by
    cases hch with
    | zero => omega
    | step o hch hr =>
      rename_i s1 n1
      obtain ⟨h1, h2, -⟩ := chain_shrinks c hc s s1 n1 hi ht hch
      obtain ⟨-, r2, r3⟩ := reject_shrinks c _ _ o h1.pos hr
      rcases r3 with r3 | r3
      · exact (min_le_left _ _).trans r3
      · rw [r3, h2]; exact min_le_right _ _
  have hpow : max c.thr (1/5) ^ n ≤ max c.thr (1/5) ^ N :=
    pow_le_pow_of_le_one hr0.le hr1.le hlt.le
  have : s'.tstep < min c.hmin (c.tstop - s.time) := by
    calc s'.tstep ≤ s.tstep * max c.thr (1/5) ^ n := h3
      _ ≤ c.hmax * max c.thr (1/5) ^ n :=
        mul_le_mul_of_nonneg_right hi.le (pow_pos hr0 _).le
      _ ≤ c.hmax * max c.thr (1/5) ^ N := mul_le_mul_of_nonneg_left hpow hc.hmax.le
      _ < c.hmax * (min c.hmin (c.tstop - s.time) / c.hmax) :=
        mul_lt_mul_of_pos_left hN hc.hmax
      _ = min c.hmin (c.tstop - s.time) := mul_div_cancel₀ _ hc.hmax.ne'
  linarith

/-- Settings of the examples. -/
def demo : Cfg ℚ :=
  { tstart := 0, tstop := 1, hmax := 3/5, hmin := 1/1000, thr := 9/10, control := false,
    apost := true, maxIter := 0 }

example : Sane demo := ⟨by decide +kernel, by decide +kernel, by decide +kernel⟩

/-- Step control with large allowed steps: a full-size step chosen before the time moves. -/
def demo2 : Cfg ℚ :=
  { tstart := 0, tstop := 9999, hmax := 10000, hmin := 1/1000, thr := 9/10, control := true,
    apost := true, maxIter := 0 }

/-- Times recorded when the loop ends normally. -/
def finishedTimes (c : Cfg ℚ) (os : List (Outcome ℚ)) : Option (List ℚ) :=
  match run c os (start c) with
  | .finished s => some s.times
  | _ => none

/-- C26 is false in two respects: the starting point is not recorded, and the last time
passes `tstop`, both without step control (two steps of 3/5 up to 1) and with it (the new
step is limited by the time left before the current step, line 372). -/
theorem C26_refuted :
    finishedTimes demo [.ok none, .ok none] = some [3/5, 6/5] ∧
    finishedTimes demo2 (List.replicate 14 (.ok (some []))) =
      some [1, 3, 7, 15, 31, 63, 127, 255, 511, 1023, 2047, 4095, 8191, 14095] := by
  constructor <;> decide +kernel

/-- C27: a step of zero is accepted and the loop then never advances: after any number of
successful attempts the time is still `tstart`. -/
theorem C27_zero_step_refuted (n : Nat) :
    let c : Cfg ℚ := { demo with hmax := 0 }
    ∃ s, run c (List.replicate n (.ok none)) (start c) = .running s ∧ s.time = c.tstart := by
  intro c
  have aux : ∀ (n : Nat) (s : St ℚ), s.time = c.tstart → s.tstep = 0 →
      ∃ s', run c (List.replicate n (.ok none)) s = .running s' ∧ s'.time = c.tstart := by
    intro n
    induction n with
    | zero =>
      intro s h1 _
      refine ⟨s, ?_, h1⟩
      unfold run
      rw [if_pos (by rw [h1]; decide +kernel)]
      rfl
    | succ n ih =>
      intro s h1 h2
      rw [List.replicate_succ]
      unfold run
      rw [if_pos (by rw [h1]; decide +kernel)]
      have e : pass c s (.ok none) = .running
          { s with tried := s.tried ++ [s.tstep], time := s.time + s.tstep, tstep := s.tstep,
                   iter := s.iter + 1, times := s.times ++ [s.time + s.tstep] } := by
        unfold pass accept
        simp [c, demo]
      simp only [e]
      exact ih _ (by simp [h1, h2]) (by simp [h2])
  exact aux n (start c) rfl (by simp [start, c, demo])

/-! ### C125: the limit on the number of points -/

/-- What one pass does to the number of points. -/
def Counted (c : Cfg K) : Status K → Prop
  | .running s => s.iter = s.times.length ∧ (c.maxIter ≠ 0 → s.times.length < c.maxIter)
  | .finished s => s.iter = s.times.length ∧ (c.maxIter ≠ 0 → s.times.length < c.maxIter)
  | .raised s => c.maxIter ≠ 0 → s.times.length < c.maxIter
  | .halted s => (c.control = true → c.maxIter ≠ 0 ∧ s.times.length = c.maxIter) ∧
      (c.maxIter ≠ 0 → s.times.length ≤ c.maxIter)

omit [IsStrictOrderedRing K] in
theorem pass_counted (c : Cfg K) (s : St K) (o : Outcome K) (hi : s.iter = s.times.length)
    (hm : c.maxIter ≠ 0 → s.times.length < c.maxIter) : Counted c (pass c s o) := by
  have acc : ∀ (s1 : St K) (k : K), s1.iter = s.iter → s1.times = s.times → Counted c (accept c s1 k) := by
    intro s1 k h1 h2
    unfold accept
    simp only
    split
    · rename_i h
      refine ⟨fun _ => ⟨h.1, ?_⟩, fun _ => ?_⟩
      · simp only [List.length_append, List.length_singleton, h2, ← hi, ← h1]; exact h.2
      · simp only [List.length_append, List.length_singleton, h2, ← hi, ← h1]; exact h.2.le
    · rename_i h
      refine ⟨by simp [h1, h2, hi], fun h0 => ?_⟩
      have := hm h0
      simp only [List.length_append, List.length_singleton, h2]
      rcases lt_or_eq_of_le (Nat.succ_le_of_lt this) with h3 | h3
      · exact h3
      · exact absurd ⟨h0, by rw [h1, hi]; exact h3⟩ h
  unfold pass
  simp only
  split
  · exact acc _ _ rfl rfl
  · split
    · split
      · split
        · exact hm
        · exact ⟨hi, hm⟩
      · split
        · exact hm
        · exact acc _ _ rfl rfl
    · exact acc _ _ rfl rfl
  · split
    · split
      · exact hm
      · split
        · rename_i h
          have := hm h.1
          simp only [hi] at h
          omega
        · exact ⟨hi, hm⟩
    · rename_i hc
      exact ⟨fun h => absurd h hc, fun h0 => (hm h0).le⟩

omit [IsStrictOrderedRing K] in
theorem run_counted (c : Cfg K) (os : List (Outcome K)) (s : St K) (hi : s.iter = s.times.length)
    (hm : c.maxIter ≠ 0 → s.times.length < c.maxIter) : Counted c (run c os s) := by
  induction os generalizing s with
  | nil =>
    unfold run
    split <;> exact ⟨hi, hm⟩
  | cons o os ih =>
    unfold run
    split
    · simp only
      have hp := pass_counted c s o hi hm
      split
      · rename_i s' hs'
        rw [hs'] at hp
        exact ih s' hp.1 hp.2
      · exact hp
    · exact ⟨hi, hm⟩

omit [IsStrictOrderedRing K] in
/-- C125: with a limit, no analysis records more points than the limit, and one that ends normally records fewer;
with step control the analysis is halted only at the limit, in particular never when the limit is 0. Missing: an
analysis whose last point is just at the limit (refuted below). -/
theorem C125_limit_partial (c : Cfg K) (os : List (Outcome K)) :
    (c.maxIter ≠ 0 → (run c os (start c)).st.times.length ≤ c.maxIter ∧
      ∀ s, run c os (start c) = .finished s → s.times.length < c.maxIter) ∧
    (c.control = true → ∀ s, run c os (start c) = .halted s → c.maxIter ≠ 0 ∧ s.times.length = c.maxIter) := by
  have h := run_counted c os (start c) rfl (fun h => Nat.pos_of_ne_zero h)
  refine ⟨fun h0 => ⟨?_, ?_⟩, ?_⟩
  · rcases hr : run c os (start c) with s | s | s | s <;> rw [hr] at h
    · exact (h.2 h0).le
    · exact (h.2 h0).le
    · exact (h h0).le
    · exact h.2 h0
  · intro s hs
    rw [hs] at h
    exact h.2 h0
  · intro hc s hs
    rw [hs] at h
    exact h.1 hc

/-- The times recorded when the analysis is halted. -/
def haltedTimes (c : Cfg ℚ) (os : List (Outcome ℚ)) : Option (List ℚ) :=
  match run c os (start c) with
  | .halted s => some s.times
  | _ => none

/-- C125 is false for the last point: an analysis that needs as many points as the limit allows reaches `tstop` and
is then reported as halted; with a limit one higher it ends normally. -/
theorem C125_last_point_refuted :
    haltedTimes { demo with maxIter := 2 } [.ok none, .ok none] = some [3/5, 6/5] ∧
    finishedTimes { demo with maxIter := 3 } [.ok none, .ok none] = some [3/5, 6/5] := by
  constructor <;> decide +kernel

/-- without a limit, and halted at a limit of 3 -/
example : haltedTimes { demo2 with maxIter := 3 } (List.replicate 14 (.ok (some []))) = some [1, 3, 7] ∧
    haltedTimes demo2 (List.replicate 14 (.ok (some []))) = none := by
  constructor <;> decide +kernel

end Verif.Transient
