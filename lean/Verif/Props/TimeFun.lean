import Verif.Model.TimeFun
import Mathlib.Data.Rat.Floor
import Mathlib.Tactic.Linarith
import Mathlib.Tactic.FieldSimp
import Mathlib.Tactic.Ring
import Mathlib.Tactic.NormNum
import Mathlib.Tactic.Positivity

/-!
Properties C32 (pulse), C33 (piece-wise linear), C34 (analytic sources).
-/

namespace Verif.TimeFun

section
variable {K : Type} [Field K] [LinearOrder K] [IsStrictOrderedRing K] [FloorRing K]

/-- A pulse with non-negative times that fits in its period together with the delay. -/
structure Fits (p : Pulse K) : Prop where
  td : 0 ≤ p.td
  tr : 0 ≤ p.tr
  pw : 0 ≤ p.pw
  tf : 0 ≤ p.tf
  per : 0 < p.per
  fits : p.td + p.tr + p.pw + p.tf ≤ p.per

/-- One pulse as a function of the time since its start: rise, high, fall, low. -/
def shape (p : Pulse K) (u : K) : K :=
  if u < p.tr then p.v1 + (p.v2 - p.v1) * (u / p.tr)
  else if u < p.tr + p.pw then p.v2
  else if u < p.tr + p.pw + p.tf then p.v2 + (p.v1 - p.v2) * ((u - p.tr - p.pw) / p.tf)
  else p.v1

/-- The documented waveform: low before the delay, then one pulse per period. -/
def pulseSpec (p : Pulse K) (t : K) : K :=
  if t < p.td then p.v1 else shape p ((t - p.td) - p.per * ⌊(t - p.td) / p.per⌋)

/-- Time within the period as the code computes it, for `t >= 0`. -/
theorem reduced (p : Pulse K) (hp : 0 < p.per) (t : K) (ht : 0 ≤ t) :
    ∃ n : ℕ, t - p.per * (pyInt (t / p.per) : K) = t - p.per * n ∧
      0 ≤ t - p.per * n ∧ t - p.per * n < p.per ∧ (n : ℤ) = ⌊t / p.per⌋ := by
  have hq : 0 ≤ t / p.per := div_nonneg ht hp.le
  have hf : 0 ≤ ⌊t / p.per⌋ := Int.floor_nonneg.2 hq
  refine ⟨⌊t / p.per⌋.toNat, ?_, ?_, ?_, Int.toNat_of_nonneg hf⟩
  · unfold pyInt
    rw [if_pos hq]
    congr 2
    exact_mod_cast (Int.toNat_of_nonneg hf).symm
  all_goals
    have hc : ((⌊t / p.per⌋.toNat : ℕ) : K) = (⌊t / p.per⌋ : K) := by
      exact_mod_cast congrArg (Int.cast (R := K)) (Int.toNat_of_nonneg hf)
    rw [hc]
  · have := Int.floor_le (t / p.per)
    rw [le_div_iff₀ hp] at this
    linarith
  · have := Int.lt_floor_add_one (t / p.per)
    rw [div_lt_iff₀ hp] at this
    linarith

/-- C32 (part): the pulse equals the documented waveform at all times, if delay, rise, width
and fall fit in one period. -/
theorem C32_documented_partial (p : Pulse K) (h : Fits p) (t : K) (ht : 0 ≤ t) :
    p.call t = pulseSpec p t := by
  obtain ⟨n, e, hn0, hn1, hfl⟩ := reduced p h.per t ht
  have hper := h.per
  unfold Pulse.call
  simp only
  rw [e]
  generalize hu : t - p.per * (n : K) = u at *
  have hnn : (0 : K) ≤ n := Nat.cast_nonneg n
  unfold pulseSpec
  by_cases hlow : u < p.td
  · -- in the delay part of a period
    rw [if_pos hlow]
    split
    · rfl
    · rename_i ht'
      -- at least one period has passed, the previous pulse is over
      have hn : n ≠ 0 := by
        rintro rfl
        simp at hu
        exact ht' (hu ▸ hlow)
      have hfloor : ⌊(t - p.td) / p.per⌋ = (n : ℤ) - 1 := by
        rw [Int.floor_eq_iff]
        push_cast
        constructor
        · rw [le_div_iff₀ hper]
          have := h.fits; have := h.tr; have := h.pw; have := h.tf
          nlinarith
        · rw [div_lt_iff₀ hper]; nlinarith
      have hv : t - p.td - p.per * ((⌊(t - p.td) / p.per⌋ : ℤ) : K) = u - p.td + p.per := by
        rw [hfloor, ← hu]; push_cast; ring
      rw [hv]
      unfold shape
      have := h.fits; have := h.tr; have := h.pw; have := h.tf
      rw [if_neg (by linarith), if_neg (by linarith), if_neg (by linarith)]
  · rw [if_neg hlow]
    have hge : ¬ t < p.td := by
      intro hc
      have : t - p.per * (n : K) ≤ t := by nlinarith
      linarith
    rw [if_neg hge]
    have hfloor : ⌊(t - p.td) / p.per⌋ = (n : ℤ) := by
      rw [Int.floor_eq_iff]
      push_cast
      constructor
      · rw [le_div_iff₀ hper]; linarith
      · rw [div_lt_iff₀ hper]
        have := h.td
        linarith
    have hv : t - p.td - p.per * ((⌊(t - p.td) / p.per⌋ : ℤ) : K) = u - p.td := by
      rw [hfloor, ← hu]; push_cast; ring
    rw [hv]
    unfold shape
    have q1 : (u - p.td < p.tr) ↔ (u < p.td + p.tr) := by
      constructor <;> intro h <;> linarith
    have q2 : (u - p.td < p.tr + p.pw) ↔ (u < p.td + p.tr + p.pw) := by
      constructor <;> intro h <;> linarith
    have q3 : (u - p.td < p.tr + p.pw + p.tf) ↔ (u < p.td + p.tr + p.pw + p.tf) := by
      constructor <;> intro h <;> linarith
    simp only [q1, q2, q3]
    split_ifs <;> ring

/-- C32: the waveform is periodic for all non-negative times, without any condition on the
other parameters. -/
theorem C32_periodic (p : Pulse K) (hp : 0 < p.per) (t : K) (ht : 0 ≤ t) :
    p.call (t + p.per) = p.call t := by
  have e : t + p.per - p.per * (pyInt ((t + p.per) / p.per) : K) =
      t - p.per * (pyInt (t / p.per) : K) := by
    have h1 : 0 ≤ t / p.per := div_nonneg ht hp.le
    have h2 : (t + p.per) / p.per = t / p.per + 1 := by field_simp
    unfold pyInt
    rw [h2, if_pos h1, if_pos (by linarith), Int.floor_add_one]
    push_cast; ring
  unfold Pulse.call
  simp only [e]

/-- C32: the waveform stays between `v1` and `v2` at all times (also negative ones), for
arbitrary parameters. -/
theorem C32_between (p : Pulse K) (t : K) :
    min p.v1 p.v2 ≤ p.call t ∧ p.call t ≤ max p.v1 p.v2 := by
  have mix : ∀ a b q : K, 0 ≤ q → q ≤ 1 → min a b ≤ a + (b - a) * q ∧ a + (b - a) * q ≤ max a b := by
    intro a b q h0 h1
    constructor
    · have h2 := min_le_left a b
      have h3 := min_le_right a b
      nlinarith
    · have h2 := le_max_left a b
      have h3 := le_max_right a b
      nlinarith
  unfold Pulse.call
  simp only
  generalize t - p.per * (pyInt (t / p.per) : K) = u
  by_cases h0 : u < p.td
  · rw [if_pos h0]; exact ⟨min_le_left _ _, le_max_left _ _⟩
  rw [if_neg h0]
  by_cases h1 : u < p.td + p.tr
  · rw [if_pos h1]
    have htr : 0 < p.tr := by linarith
    have := mix p.v1 p.v2 ((u - p.td) / p.tr) (div_nonneg (by linarith) htr.le)
      (by rw [div_le_one htr]; linarith)
    have e : (p.v2 - p.v1) / p.tr * (u - p.td) = (p.v2 - p.v1) * ((u - p.td) / p.tr) := by
      field_simp
    rw [e]; exact this
  rw [if_neg h1]
  by_cases h2 : u < p.td + p.tr + p.pw
  · rw [if_pos h2]; exact ⟨min_le_right _ _, le_max_right _ _⟩
  rw [if_neg h2]
  by_cases h3 : u < p.td + p.tr + p.pw + p.tf
  · rw [if_pos h3]
    have htf : 0 < p.tf := by linarith
    have := mix p.v2 p.v1 ((u - (p.td + p.tr + p.pw)) / p.tf) (div_nonneg (by linarith) htf.le)
      (by rw [div_le_one htf]; linarith)
    have e : (p.v1 - p.v2) / p.tf * (u - (p.td + p.tr + p.pw)) =
        (p.v1 - p.v2) * ((u - (p.td + p.tr + p.pw)) / p.tf) := by
      field_simp
    rw [e, min_comm, max_comm]; exact this
  rw [if_neg h3]; exact ⟨min_le_left _ _, le_max_left _ _⟩

/-- C32: `v1` before the delay. -/
theorem C32_before_delay (p : Pulse K) (hp : 0 < p.per) (t : K) (ht : 0 ≤ t) (h : t < p.td) :
    p.call t = p.v1 := by
  obtain ⟨n, e, hn0, hn1, -⟩ := reduced p hp t ht
  unfold Pulse.call
  simp only
  rw [e, if_pos]
  have : (0 : K) ≤ p.per * n := mul_nonneg hp.le (Nat.cast_nonneg n)
  linarith

end

/-- An ordinary pulse. -/
def pulseDemo : Pulse ℚ := .mk' 1 5 (1/10) (1/10) (3/10) (2/10) 1

example : Fits pulseDemo := by
  constructor <;> decide +kernel
example : pulseDemo.call (1/20) = 1 ∧ pulseDemo.call (23/20) = 3 ∧ pulseDemo.call (5/4) = 5 ∧
    pulseDemo.call (8/5) = 3 := by decide +kernel

/-- A pulse that fits in its period, but not together with its delay. -/
def pulseLate : Pulse ℚ := .mk' 0 1 (6/10) (1/10) (3/10) (1/10) 1

/-- C32 is false when delay plus pulse exceed the period, because the code repeats the delay in
every period: the high part is cut off; with a delay longer than the period the pulse never
comes. -/
theorem C32_late_refuted :
    pulseLate.tr + pulseLate.pw + pulseLate.tf ≤ pulseLate.per ∧
    pulseSpec pulseLate 1 = 1 ∧ pulseLate.call 1 = 0 ∧
    pulseSpec { pulseLate with td := 3/2 } (7/4) = 1 := by
  decide +kernel

/-- C32: with a delay of at least a period the waveform is constant. -/
theorem C32_never_refuted (p : Pulse ℚ) (hp : 0 < p.per) (htd : p.per ≤ p.td) (t : ℚ)
    (ht : 0 ≤ t) : p.call t = p.v1 := by
  obtain ⟨n, e, hn0, hn1, -⟩ := reduced p hp t ht
  unfold Pulse.call
  simp only
  rw [e, if_pos (by linarith)]

/-! ### Piece-wise linear -/

section
variable {K : Type} [Field K] [LinearOrder K] [IsStrictOrderedRing K]

theorem line_left (p q : K × K) : line p q p.1 = p.2 := by simp [line]

theorem line_right (p q : K × K) (h : p.1 < q.1) : line p q q.1 = q.2 := by
  unfold line
  have : q.1 - p.1 ≠ 0 := by linarith [sub_pos.2 h] |> fun h : q.1 - p.1 > 0 => h.ne'
  field_simp
  ring

/-- The spline is the straight line on every segment. -/
theorem spline_segment (pts : List (K × K)) (hs : pts.Pairwise (fun a b => a.1 < b.1))
    (l r : List (K × K)) (p q : K × K) (hpts : pts = l ++ p :: q :: r) (t : K)
    (h1 : p.1 ≤ t) (h2 : t ≤ q.1) : spline pts t = line p q t := by
  induction l generalizing pts with
  | nil =>
    subst hpts
    cases r with
    | nil => rfl
    | cons c r =>
      simp only [List.nil_append, spline]
      rw [if_pos h2]
  | cons a l ih =>
    subst hpts
    simp only [List.cons_append] at hs ⊢
    have hs' := (List.pairwise_cons.1 hs).2
    have hrec := ih (l ++ p :: q :: r) hs' rfl
    -- at least two points follow `a`
    obtain ⟨b, c, rest, hrest⟩ : ∃ b c rest, l ++ p :: q :: r = b :: c :: rest := by
      cases l with
      | nil => exact ⟨p, q, r, rfl⟩
      | cons b l' =>
        cases l' with
        | nil => exact ⟨b, p, q :: r, rfl⟩
        | cons c l'' => exact ⟨b, c, l'' ++ p :: q :: r, rfl⟩
    rw [hrest] at hs' hrec ⊢
    simp only [spline]
    split
    · rename_i hle
      -- then `t` is the abscissa of `b`, and `b` is `p`
      have hbp : b = p := by
        cases l with
        | nil => simp at hrest; exact hrest.1.symm
        | cons b' l' =>
          simp only [List.cons_append, List.cons.injEq] at hrest
          have hlt : b.1 < p.1 := by
            apply (List.pairwise_cons.1 hs').1 p
            rw [← hrest.2]; simp
          exact absurd (h1.trans hle) (not_le.2 hlt)
      subst hbp
      have ht : t = b.1 := le_antisymm hle h1
      have hab : a.1 < b.1 := by
        have := (List.pairwise_cons.1 hs).1 b
        apply this
        rw [hrest]; simp
      rw [ht, line_right a b hab, line_left]
    · exact hrec

/-- C33 (part): between consecutive points the waveform is the straight line through them; at
the points it has their values. Times count from the delay; without repetition or up to the
last point. -/
theorem C33_interpolates_partial [FloorRing K] (w : Pwl K)
    (hs : w.pts.Pairwise (fun a b => a.1 < b.1))
    (l r : List (K × K)) (p q : K × K) (hpts : w.pts = l ++ p :: q :: r) (time : K)
    (h0 : w.td ≤ time) (h1 : p.1 ≤ time - w.td) (h2 : time - w.td ≤ q.1) :
    w.call time = p.2 + (q.2 - p.2) * ((time - w.td - p.1) / (q.1 - p.1)) := by
  have hmax : q.1 ≤ maxX w.pts := by
    have : ∀ (l : List K) (a x : K), x ∈ l → x ≤ l.foldl max a := by
      intro l
      induction l with
      | nil => intro a x hx; simp at hx
      | cons b l ih =>
        intro a x hx
        have mono : ∀ (l : List K) (a : K), a ≤ l.foldl max a := by
          intro l
          induction l with
          | nil => intro a; exact le_refl _
          | cons c l ih => intro a; exact (le_max_left a c).trans (ih _)
        rcases List.mem_cons.1 hx with rfl | hx
        · exact (le_max_right a x).trans (mono l _)
        · exact ih _ x hx
    apply this
    rw [hpts]; simp
  have hn : w.normalize time = time - w.td := by
    unfold Pwl.normalize
    split
    · rename_i hle
      have : time = w.td := le_antisymm hle h0
      rw [this, sub_self]
    · simp only
      rw [if_neg]
      rintro ⟨-, hgt⟩
      linarith
  unfold Pwl.call
  rw [hn, spline_segment w.pts hs l r p q hpts _ h1 h2, line]
  ring

/-- C33: with a repeat time the waveform is periodic after the last point. -/
theorem C33_periodic [FloorRing K] (w : Pwl K) (hr : w.repeats = true)
    (hrt : w.repeatTime < maxX w.pts) (htd : 0 ≤ maxX w.pts) (time : K)
    (h : w.td + maxX w.pts < time) :
    w.call (time + (maxX w.pts - w.repeatTime)) = w.call time := by
  have hP : 0 < maxX w.pts - w.repeatTime := by linarith
  unfold Pwl.call
  congr 1
  unfold Pwl.normalize
  have n1 : ¬ time + (maxX w.pts - w.repeatTime) ≤ w.td := by linarith
  have n2 : ¬ time ≤ w.td := by linarith
  rw [if_neg n1, if_neg n2]
  simp only
  have n3 : w.repeats ∧ time + (maxX w.pts - w.repeatTime) - w.td > maxX w.pts :=
    ⟨hr, by linarith⟩
  have n4 : w.repeats ∧ time - w.td > maxX w.pts := ⟨hr, by linarith⟩
  rw [if_pos n3, if_pos n4]
  congr 1
  unfold pyMod
  have e : (time + (maxX w.pts - w.repeatTime) - w.td - maxX w.pts) /
      (maxX w.pts - w.repeatTime) =
      (time - w.td - maxX w.pts) / (maxX w.pts - w.repeatTime) + 1 := by
    field_simp
    ring
  rw [e, Int.floor_add_one]
  push_cast
  ring

/-- C33: in the repeated part the values are those between the repeat time and the last
point. -/
theorem C33_repeats_tail [FloorRing K] (w : Pwl K) (hr : w.repeats = true)
    (hrt : w.repeatTime < maxX w.pts) (htd : 0 ≤ maxX w.pts) (time : K)
    (h : w.td + maxX w.pts < time) :
    ∃ u, w.repeatTime ≤ u ∧ u < maxX w.pts ∧ w.call time = spline w.pts u := by
  have hP : 0 < maxX w.pts - w.repeatTime := by linarith
  refine ⟨w.normalize time, ?_, ?_, rfl⟩
  all_goals
    unfold Pwl.normalize
    rw [if_neg (by linarith)]
    simp only
    rw [if_pos ⟨hr, by linarith⟩]
    unfold pyMod
  · have := Int.floor_le ((time - w.td - maxX w.pts) / (maxX w.pts - w.repeatTime))
    rw [le_div_iff₀ hP] at this
    linarith
  · have := Int.lt_floor_add_one ((time - w.td - maxX w.pts) / (maxX w.pts - w.repeatTime))
    rw [div_lt_iff₀ hP] at this
    linarith

/-- C33: a waveform created with a repetition time equal to its last point repeats as a whole, from zero. -/
theorem C33_repeats_whole [FloorRing K] (pts : List (K × K)) (td : K) (hm : 0 < maxX pts) (time : K)
    (h : td + maxX pts < time) :
    (Pwl.init pts true (maxX pts) td).call (time + maxX pts) = (Pwl.init pts true (maxX pts) td).call time ∧
    ∃ u, 0 ≤ u ∧ u < maxX pts ∧ (Pwl.init pts true (maxX pts) td).call time = spline pts u := by
  have e : (Pwl.init pts true (maxX pts) td) = ⟨pts, true, 0, td⟩ := by simp [Pwl.init]
  rw [e]
  have h1 := C33_periodic ⟨pts, true, 0, td⟩ rfl hm hm.le time h
  have h2 := C33_repeats_tail ⟨pts, true, 0, td⟩ rfl hm hm.le time h
  simp only [sub_zero] at h1
  exact ⟨h1, h2⟩

end

example : (Pwl.init [(1, 0), (2, 4), (4, 5)] true 4 0 : Pwl ℚ).call (11/2) = 2 := by decide +kernel

/-- Example points. -/
def pwlDemo : Pwl ℚ := .init [(1, 0), (2, 4), (4, 5)] false 0 0
def pwlRep : Pwl ℚ := .init [(1, 0), (2, 4), (4, 5)] true 1 0

example : pwlDemo.pts.Pairwise (fun a b => a.1 < b.1) := by decide +kernel
example : pwlDemo.call (3/2) = 2 ∧ pwlDemo.call 3 = 9/2 ∧ pwlRep.call 5 = 4 ∧
    pwlRep.call (9/2) = 2 := by decide +kernel

/-- C33 is false outside the points: the spline extrapolates its first and last segments
instead of holding the values. -/
theorem C33_outside_refuted :
    pwlDemo.call 0 = -4 ∧ pwlDemo.call 6 = 6 := by decide +kernel

/-! ### Analytic sources -/

open Real

/-- C34: before the delay the sources hold their initial value. -/
theorem C34_initial (vo va freq td theta phi v1 v2 tau1 td2 tau2 fc mdi fs sa fm oc t : ℝ)
    (h : t < td) :
    sinF vo va freq td theta phi t = vo + va * sin (π * phi / 180) ∧
    expF v1 v2 td tau1 td2 tau2 t = v1 ∧
    sffmF vo va fc mdi fs td t = vo ∧
    amF sa fc fm oc td t = 0 := by
  simp [sinF, expF, sffmF, amF, h, h.le]

/-- Gluing at a point where both sides agree, in the form used by the code. -/
theorem continuous_glue_lt (f g : ℝ → ℝ) (a : ℝ) (hf : Continuous f) (hg : Continuous g)
    (h : f a = g a) : Continuous fun t => if t < a then f t else g t := by
  have : (fun t => if t < a then f t else g t) = fun t => if a ≤ t then g t else f t := by
    funext t
    by_cases ht : t < a
    · simp [ht]
    · simp [ht, not_lt.1 ht]
  rw [this]
  refine Continuous.if_le hg hf continuous_const continuous_id ?_
  intro x hx
  subst hx
  exact h.symm

theorem continuous_glue_le (f g : ℝ → ℝ) (a : ℝ) (hf : Continuous f) (hg : Continuous g)
    (h : f a = g a) : Continuous fun t => if t ≤ a then f t else g t := by
  refine Continuous.if_le hf hg continuous_id continuous_const ?_
  intro x hx
  subst hx
  exact h

/-- C34: the sine source is continuous at all times. -/
theorem C34_sin_continuous (vo va freq td theta phi : ℝ) :
    Continuous (sinF vo va freq td theta phi) := by
  unfold sinF
  apply continuous_glue_lt
  · fun_prop
  · fun_prop
  · simp

/-- C34: the exponential source is continuous at all times if `td1 <= td2`. -/
theorem C34_exp_continuous (v1 v2 td1 tau1 td2 tau2 : ℝ) (h : td1 ≤ td2) :
    Continuous (expF v1 v2 td1 tau1 td2 tau2) := by
  unfold expF
  apply continuous_glue_lt
  · fun_prop
  · apply continuous_glue_lt
    · fun_prop
    · fun_prop
    · simp
  · by_cases hlt : td1 < td2
    · simp [hlt]
    · have : td1 = td2 := le_antisymm h (not_lt.1 hlt)
      subst this
      simp

/-- C34: the frequency modulated source is continuous at all times. -/
theorem C34_sffm_continuous (vo va fc mdi fs td : ℝ) : Continuous (sffmF vo va fc mdi fs td) := by
  unfold sffmF
  apply continuous_glue_le
  · fun_prop
  · fun_prop
  · simp

/-- C34: the amplitude modulated source is continuous at all times. -/
theorem C34_am_continuous (sa fc fm oc td : ℝ) : Continuous (amF sa fc fm oc td) := by
  unfold amF
  apply continuous_glue_le
  · fun_prop
  · fun_prop
  · simp

/-- C34 (part): the exponential source stays between its two values if it does not fall faster
than it rises. -/
theorem C34_exp_between_partial (v1 v2 td1 tau1 td2 tau2 t : ℝ) (hv : v1 ≤ v2) (htd : td1 ≤ td2)
    (ht1 : 0 < tau1) (htau : tau1 ≤ tau2) :
    v1 ≤ expF v1 v2 td1 tau1 td2 tau2 t ∧ expF v1 v2 td1 tau1 td2 tau2 t ≤ v2 := by
  have ht2 : 0 < tau2 := ht1.trans_le htau
  unfold expF
  split
  · exact ⟨le_refl _, hv⟩
  rename_i h1
  have e1p := Real.exp_pos (-1 * (t - td1) / tau1)
  have e1l : Real.exp (-1 * (t - td1) / tau1) ≤ 1 := by
    rw [Real.exp_le_one_iff]
    apply div_nonpos_of_nonpos_of_nonneg _ ht1.le
    linarith
  split
  · constructor <;> nlinarith
  · rename_i h2
    have e2p := Real.exp_pos (-1 * (t - td2) / tau2)
    have e2l : Real.exp (-1 * (t - td2) / tau2) ≤ 1 := by
      rw [Real.exp_le_one_iff]
      apply div_nonpos_of_nonpos_of_nonneg _ ht2.le
      linarith
    have e12 : Real.exp (-1 * (t - td1) / tau1) ≤ Real.exp (-1 * (t - td2) / tau2) := by
      apply Real.exp_le_exp.2
      rw [div_le_div_iff₀ ht1 ht2]
      have : 0 ≤ t - td2 := by linarith
      nlinarith
    constructor <;> nlinarith

/-- C34 is false for a fall that is much faster than the rise: the source undershoots `v1`. -/
theorem C34_exp_between_refuted :
    expF 0 1 0 2 1 (1/2) 2 < 0 := by
  unfold expF
  norm_num

/-- C34: after the delay the sources follow the documented formulas (docstrings of time_functions.py and
doc/help/Netlist-Syntax.rst). -/
theorem C34_documented (vo va freq td theta phi v1 v2 tau1 td2 tau2 fc mdi fs sa fm oc t : ℝ) (h : td < t) :
    sinF vo va freq td theta phi t =
      vo + va * Real.exp (-(t - td) * theta) * sin (2 * π * freq * (t - td) + π * phi / 180) ∧
    (t < td2 → expF v1 v2 td tau1 td2 tau2 t = v1 + (v2 - v1) * (1 - Real.exp (-((t - td) / tau1)))) ∧
    (td2 < t → expF v1 v2 td tau1 td2 tau2 t = v1 + (v2 - v1) * (1 - Real.exp (-((t - td) / tau1))) +
      (v1 - v2) * (1 - Real.exp (-((t - td2) / tau2)))) ∧
    sffmF vo va fc mdi fs td t = vo + va * sin (2 * π * fc * (t - td) + mdi * sin (2 * π * fs * (t - td))) ∧
    amF sa fc fm oc td t = sa * (oc + sin (2 * π * fm * (t - td))) * sin (2 * π * fc * (t - td)) := by
  have hn : ¬ t < td := not_lt.mpr h.le
  have hn' : ¬ t ≤ td := not_le.mpr h
  have e1 : ∀ a b : ℝ, -1 * a / b = -(a / b) := fun a b => by ring
  refine ⟨?_, ?_, ?_, ?_, ?_⟩
  · unfold sinF; rw [if_neg hn, show (td - t) * theta = -(t - td) * theta by ring]
  · intro h2; unfold expF; rw [if_neg hn, if_pos h2, e1]
  · intro h2; unfold expF; rw [if_neg hn, if_neg (not_lt.mpr h2.le), e1, e1]
  · unfold sffmF; rw [if_neg hn']
  · unfold amF; rw [if_neg hn']

/-- C34: an undamped sine repeats every `1/freq` after its delay, and a sine never leaves its decaying envelope; an
amplitude modulated carrier stays within `|sa| (|oc| + 1)`. -/
theorem C34_period_and_envelope (vo va freq td theta phi sa fc fm oc t : ℝ) (h : td < t) (hf : 0 < freq) :
    sinF vo va freq td 0 phi (t + 1 / freq) = sinF vo va freq td 0 phi t ∧
    |sinF vo va freq td theta phi t - vo| ≤ |va| * Real.exp (-(t - td) * theta) ∧
    |amF sa fc fm oc td t| ≤ |sa| * (|oc| + 1) := by
  have hn : ¬ t < td := not_lt.mpr h.le
  refine ⟨?_, ?_, ?_⟩
  · have hq : 0 < 1 / freq := by positivity
    unfold sinF
    rw [if_neg hn, if_neg (by linarith)]
    congr 1
    rw [show 2 * π * freq * (t + 1 / freq - td) + π * phi / 180 =
      2 * π * freq * (t - td) + π * phi / 180 + 2 * π by field_simp; ring, Real.sin_add_two_pi]
    simp
  · unfold sinF
    rw [if_neg hn, add_sub_cancel_left, show (td - t) * theta = -(t - td) * theta by ring, abs_mul, abs_mul,
      abs_of_pos (Real.exp_pos _)]
    exact mul_le_of_le_one_right (by positivity) (Real.abs_sin_le_one _)
  · unfold amF
    rw [if_neg (not_le.mpr h), abs_mul, abs_mul]
    have h1 : |oc + sin (2 * π * fm * (t - td))| ≤ |oc| + 1 :=
      (abs_add_le _ _).trans (by linarith [Real.abs_sin_le_one (2 * π * fm * (t - td))])
    calc _ ≤ |sa| * |oc + sin (2 * π * fm * (t - td))| :=
          mul_le_of_le_one_right (by positivity) (Real.abs_sin_le_one _)
      _ ≤ _ := mul_le_mul_of_nonneg_left h1 (abs_nonneg _)

/-- a quarter of a period after the delay -/
example : sinF 1 2 (1/4) 3 0 0 4 = 3 := by
  unfold sinF
  norm_num
  rw [show 2 * π * (1 / 4) = π / 2 by ring, Real.sin_pi_div_two]
  norm_num

end Verif.TimeFun
