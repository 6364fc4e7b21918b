import Verif.Model.PssRun
import Verif.Props.Pss
import Verif.Props.Newton
import Mathlib.Analysis.Calculus.Deriv.Mul
import Mathlib.Analysis.Calculus.Deriv.Add
import Mathlib.Analysis.Calculus.Deriv.Pow
import Mathlib.Analysis.Calculus.Deriv.Prod

/-!
Properties C172 and C173: what the periodic steady state analyses report.
-/

set_option linter.unusedSectionVars false

namespace Verif.PssRun
open Matrix Verif.Circuit

section
variable {K : Type} [Field K] [LinearOrder K] [IsStrictOrderedRing K] {m : Nat}

theorem foldl_max_lt (l : List K) (a b : K) : l.foldl max a < b ↔ a < b ∧ ∀ y ∈ l, y < b := by
  induction l generalizing a with
  | nil => simp
  | cons c r ih => simp only [List.foldl_cons, ih, max_lt_iff, List.mem_cons, forall_eq_or_imp]; tauto

theorem norm_lt (v : Fin m → K) (b : K) : norm v < b ↔ 0 < b ∧ ∀ r, |v r| < b := by
  unfold norm
  rw [foldl_max_lt]
  simp [List.mem_ofFn]

theorem wrapper_lt (f : Nat → Fin m → K) (points : Nat) (b : K) :
    wrapper f points < b ↔ 0 < b ∧ ∀ i < points, ∀ r, |f i r| < b := by
  have key : ∀ (l : List Nat) (a : K),
      l.foldl (fun a i => if a < norm (f i) then norm (f i) else a) a < b ↔ a < b ∧ ∀ i ∈ l, norm (f i) < b := by
    intro l
    induction l with
    | nil => simp
    | cons c r ih =>
      intro a
      rw [List.foldl_cons, ih]
      simp only [List.mem_cons, forall_eq_or_imp]
      split_ifs with hc
      · exact ⟨fun h => ⟨hc.trans h.1, h.1, h.2⟩, fun h => ⟨h.2.1, h.2.2⟩⟩
      · exact ⟨fun h => ⟨h.1, (not_lt.1 hc).trans_lt h.1, h.2⟩, fun h => ⟨h.1, h.2.2⟩⟩
  unfold wrapper
  rw [key]
  simp only [List.mem_range, norm_lt]
  constructor
  · rintro ⟨h0, h⟩
    exact ⟨h0, fun i hi => (h i hi).2⟩
  · rintro ⟨h0, h⟩
    exact ⟨h0, fun i hi => ⟨h0, h i hi⟩⟩

/-- the largest magnitude of all unknowns at all points -/
theorem wrapper_nonneg (f : Nat → Fin m → K) (points : Nat) : 0 ≤ wrapper f points := by
  by_contra h
  have := (wrapper_lt f points 0).1 (not_le.1 h)
  exact lt_irrefl _ this.1

theorem le_wrapper (f : Nat → Fin m → K) {points i : Nat} (hi : i < points) (r : Fin m) : |f i r| ≤ wrapper f points := by
  by_contra h
  have := (wrapper_lt f points _).1 (not_le.1 h)
  exact lt_irrefl _ (this.2 i hi r)

/-! ### The loop of the shooting method -/

theorem step_eq (o : Newton.Opts K) (c : PCirc K m) (h : K) (points : Nat) (x x' dx : Nat → Fin m → K) :
    shootStep o c h points x = some (x', dx) ↔
      ((∀ i < points, IsUnit (MA c h x i).det) ∧
        IsUnit (1 - Pss.mat1 (MA c h x) (Pss.static c.mna c.D h).2 points).det) ∧
      x' = (fun i => Newton.getTd o (dx i) c.locked (-1) • dx i + x i) ∧
      dx = Pss.dx (MA c h x) (Pss.static c.mna c.D h).2 (Tass c h points x) points := by
  unfold shootStep
  by_cases hu : (∀ i < points, IsUnit (MA c h x i).det) ∧
      IsUnit (1 - Pss.mat1 (MA c h x) (Pss.static c.mna c.D h).2 points).det
  · rw [if_pos hu]
    simp only [Option.some.injEq, Prod.mk.injEq]
    constructor
    · rintro ⟨rfl, rfl⟩
      exact ⟨hu, rfl, rfl⟩
    · rintro ⟨-, rfl, rfl⟩
      exact ⟨rfl, rfl⟩
  · rw [if_neg hu]
    exact ⟨fun hh => (by cases hh), fun hh => absurd hh.1 hu⟩

/-- the points after `k` rounds -/
noncomputable def orbit (o : Newton.Opts K) (c : PCirc K m) (h : K) (points : Nat) (x : Nat → Fin m → K) :
    Nat → Option (Nat → Fin m → K)
  | 0 => some x
  | k + 1 => (orbit o c h points x k).bind fun y => (shootStep o c h points y).map Prod.fst

/-- the update of round `k` is within the tolerances -/
def SmallAt (o : Newton.Opts K) (t : Tol K) (c : PCirc K m) (h : K) (points : Nat) (x : Nat → Fin m → K) (k : Nat) : Prop :=
  ∃ y x' dx, orbit o c h points x k = some y ∧ shootStep o c h points y = some (x', dx) ∧ shootSmall t points x' dx

theorem orbit_shift {o : Newton.Opts K} {c : PCirc K m} {h : K} {points : Nat} {x x' dx : Nat → Fin m → K}
    (hs : shootStep o c h points x = some (x', dx)) (k : Nat) :
    orbit o c h points x (k + 1) = orbit o c h points x' k := by
  induction k with
  | zero => simp [orbit, hs]
  | succ k ih => rw [orbit, ih]; rfl

theorem smallAt_shift {o : Newton.Opts K} {t : Tol K} {c : PCirc K m} {h : K} {points : Nat} {x x' dx : Nat → Fin m → K}
    (hs : shootStep o c h points x = some (x', dx)) (k : Nat) :
    SmallAt o t c h points x (k + 1) ↔ SmallAt o t c h points x' k := by
  unfold SmallAt
  rw [orbit_shift hs]

theorem smallAt_zero {o : Newton.Opts K} {t : Tol K} {c : PCirc K m} {h : K} {points : Nat} {x x' dx : Nat → Fin m → K}
    (hs : shootStep o c h points x = some (x', dx)) : SmallAt o t c h points x 0 ↔ shootSmall t points x' dx := by
  constructor
  · rintro ⟨y, a, b, h1, h2, h3⟩
    simp only [orbit, Option.some.injEq] at h1
    subst h1
    rw [hs] at h2
    simp only [Option.some.injEq, Prod.mk.injEq] at h2
    obtain ⟨rfl, rfl⟩ := h2
    exact h3
  · intro h3
    exact ⟨x, x', dx, rfl, hs, h3⟩

/-- rounds `k - 3` to `k` are all within the tolerances, where `conv` rounds before the first one were, too -/
def Four (P : Nat → Prop) (conv k : Nat) : Prop := 3 ≤ k + conv ∧ ∀ j ≤ k, k ≤ j + 3 → P j

theorem four_shift_small {P : Nat → Prop} {conv k : Nat} (h0 : P 0) :
    Four P conv (k + 1) ↔ Four (fun j => P (j + 1)) (conv + 1) k := by
  constructor
  · rintro ⟨a, b⟩
    exact ⟨by omega, fun j hj hk => b (j + 1) (by omega) (by omega)⟩
  · rintro ⟨a, b⟩
    refine ⟨by omega, fun j hj hk => ?_⟩
    cases j with
    | zero => exact h0
    | succ j => exact b j (by omega) (by omega)

theorem four_shift_large {P : Nat → Prop} {conv k : Nat} (h0 : ¬ P 0) :
    Four P conv (k + 1) ↔ Four (fun j => P (j + 1)) 0 k := by
  constructor
  · rintro ⟨a, b⟩
    refine ⟨?_, fun j hj hk => b (j + 1) (by omega) (by omega)⟩
    by_contra hc
    exact h0 (b 0 (by omega) (by omega))
  · rintro ⟨a, b⟩
    refine ⟨by omega, fun j hj hk => ?_⟩
    cases j with
    | zero => omega
    | succ j => exact b j (by omega) (by omega)

theorem go_spec (o : Newton.Opts K) (t : Tol K) (c : PCirc K m) (h : K) (points : Nat) :
    ∀ (rem conv : Nat) (x : Nat → Fin m → K), conv ≤ 3 →
      (∀ y, shootGo o t c h points rem conv x = some (some y) ↔ ∃ k ≤ rem, orbit o c h points x (k + 1) = some y ∧
        Four (SmallAt o t c h points x) conv k ∧ ∀ j < k, ¬ Four (SmallAt o t c h points x) conv j) ∧
      (shootGo o t c h points rem conv x = some none ↔ (orbit o c h points x (rem + 1)).isSome ∧
        ∀ j ≤ rem, ¬ Four (SmallAt o t c h points x) conv j) := by
  intro rem
  induction rem with
  | zero =>
    intro conv x hconv
    rw [shootGo]
    cases hs : shootStep o c h points x with
    | none =>
      have ho : orbit o c h points x 1 = none := by simp [orbit, hs]
      simp [ho]
    | some p =>
      obtain ⟨x', dx⟩ := p
      have ho : orbit o c h points x 1 = some x' := by simp [orbit, hs]
      have h0 := smallAt_zero (t := t) hs
      simp only [Nat.le_zero]
      by_cases hsm : shootSmall t points x' dx
      · by_cases hc : conv = 3
        · subst hc
          have f0 : Four (SmallAt o t c h points x) 3 0 := ⟨by omega, fun j hj _ => by
            have : j = 0 := by omega
            subst this; exact h0.2 hsm⟩
          simp [hsm, ho, f0]
        · have f0 : ¬ Four (SmallAt o t c h points x) conv 0 := fun ⟨a, _⟩ => by omega
          simp [hsm, hc, ho, f0]
      · have f0 : ¬ Four (SmallAt o t c h points x) conv 0 := fun ⟨_, b⟩ => hsm (h0.1 (b 0 le_rfl (by omega)))
        simp [hsm, ho, f0]
  | succ rem ih =>
    intro conv x hconv
    rw [shootGo]
    cases hs : shootStep o c h points x with
    | none =>
      have ho : ∀ k, orbit o c h points x (k + 1) = none := by
        intro k
        induction k with
        | zero => simp [orbit, hs]
        | succ k ih => rw [orbit, ih]; rfl
      simp [ho]
    | some p =>
      obtain ⟨x', dx⟩ := p
      have h0 := smallAt_zero (t := t) hs
      have hsh : (fun j => SmallAt o t c h points x (j + 1)) = SmallAt o t c h points x' := by
        funext j
        exact propext (smallAt_shift hs j)
      have ho := fun k => orbit_shift (o := o) (c := c) (h := h) (points := points) hs k
      have shift : ∀ conv', conv' ≤ 3 → (∀ k, Four (SmallAt o t c h points x) conv (k + 1) ↔
            Four (SmallAt o t c h points x') conv' k) → ¬ Four (SmallAt o t c h points x) conv 0 →
          (∀ y, shootGo o t c h points rem conv' x' = some (some y) ↔ ∃ k ≤ rem + 1, orbit o c h points x (k + 1) = some y ∧
            Four (SmallAt o t c h points x) conv k ∧ ∀ j < k, ¬ Four (SmallAt o t c h points x) conv j) ∧
          (shootGo o t c h points rem conv' x' = some none ↔ (orbit o c h points x (rem + 1 + 1)).isSome ∧
            ∀ j ≤ rem + 1, ¬ Four (SmallAt o t c h points x) conv j) := by
        intro conv' hc' hf hn
        obtain ⟨i1, i2⟩ := ih conv' x' hc'
        constructor
        · intro y
          rw [i1]
          constructor
          · rintro ⟨k, hk, a, b, d⟩
            refine ⟨k + 1, by omega, by rw [ho]; exact a, (hf k).2 b, fun j hj => ?_⟩
            cases j with
            | zero => exact hn
            | succ j => rw [hf]; exact d j (by omega)
          · rintro ⟨k, hk, a, b, d⟩
            cases k with
            | zero => exact absurd b hn
            | succ k =>
              refine ⟨k, by omega, by rw [← ho]; exact a, (hf k).1 b, fun j hj => ?_⟩
              rw [← hf]; exact d (j + 1) (by omega)
        · rw [i2, ← ho]
          constructor
          · rintro ⟨a, b⟩
            refine ⟨a, fun j hj => ?_⟩
            cases j with
            | zero => exact hn
            | succ j => rw [hf]; exact b j (by omega)
          · rintro ⟨a, b⟩
            exact ⟨a, fun j hj => by rw [← hf]; exact b (j + 1) (by omega)⟩
      by_cases hsm : shootSmall t points x' dx
      · by_cases hc : conv = 3
        · subst hc
          have f0 : Four (SmallAt o t c h points x) 3 0 := ⟨by omega, fun j hj _ => by
            have : j = 0 := by omega
            subst this; exact h0.2 hsm⟩
          simp only [hsm, if_true]
          constructor
          · intro y
            constructor
            · intro hy
              simp only [Option.some.injEq] at hy
              subst hy
              exact ⟨0, by omega, by rw [ho]; rfl, f0, fun j hj => by omega⟩
            · rintro ⟨k, hk, a, b, d⟩
              cases k with
              | zero =>
                rw [ho] at a
                simp only [orbit, Option.some.injEq] at a
                rw [a]
              | succ k => exact absurd f0 (d 0 (by omega))
          · constructor
            · intro hy; simp at hy
            · rintro ⟨-, b⟩
              exact absurd f0 (b 0 (by omega))
        · have f0 : ¬ Four (SmallAt o t c h points x) conv 0 := fun ⟨a, _⟩ => by omega
          have := shift (conv + 1) (by omega) (fun k => by rw [four_shift_small (h0.2 hsm), hsh]) f0
          simpa [hsm, hc] using this
      · have f0 : ¬ Four (SmallAt o t c h points x) conv 0 := fun ⟨_, b⟩ => hsm (h0.1 (b 0 le_rfl (by omega)))
        have := shift 0 (by omega) (fun k => by rw [four_shift_large (fun hh => hsm (h0.1 hh)), hsh]) f0
        simpa [hsm] using this

/-- C172: a solution is reported after the first four rounds in a row whose updates are all within the tolerances, if they
end within the limit of rounds, and it is the result of the last one. -/
theorem C172_reported (o : Newton.Opts K) (t : Tol K) (c : PCirc K m) (h : K) (points maxIter : Nat)
    (x y : Nat → Fin m → K) :
    shooting o t c h points maxIter x = some (some y) ↔
      ∃ k, 3 ≤ k ∧ k ≤ maxIter ∧ orbit o c h points x (k + 1) = some y ∧
        (∀ j, j ≤ k → k ≤ j + 3 → SmallAt o t c h points x j) ∧
        ∀ k', 3 ≤ k' → k' < k → ∃ j, j ≤ k' ∧ k' ≤ j + 3 ∧ ¬ SmallAt o t c h points x j := by
  have := (go_spec o t c h points maxIter 0 x (by omega)).1 y
  unfold shooting
  rw [this]
  constructor
  · rintro ⟨k, hk, a, ⟨b1, b2⟩, d⟩
    refine ⟨k, by omega, hk, a, b2, fun k' h3 hk' => ?_⟩
    by_contra hc
    push Not at hc
    exact d k' hk' ⟨by omega, fun j hj hjk => hc j hj hjk⟩
  · rintro ⟨k, h3, hk, a, b, d⟩
    refine ⟨k, hk, a, ⟨by omega, b⟩, fun j hj hf => ?_⟩
    obtain ⟨i, hi, hji, hn⟩ := d j (by have := hf.1; omega) hj
    exact hn (hf.2 i hi hji)

/-- C172: the analysis gives up only if all rounds were possible and no four rounds in a row were within the tolerances. -/
theorem C172_failed (o : Newton.Opts K) (t : Tol K) (c : PCirc K m) (h : K) (points maxIter : Nat)
    (x : Nat → Fin m → K) :
    shooting o t c h points maxIter x = some none ↔ (orbit o c h points x (maxIter + 1)).isSome ∧
      ∀ k, 3 ≤ k → k ≤ maxIter → ∃ j, j ≤ k ∧ k ≤ j + 3 ∧ ¬ SmallAt o t c h points x j := by
  have := (go_spec o t c h points maxIter 0 x (by omega)).2
  unfold shooting
  rw [this]
  refine and_congr_right fun _ => ⟨fun hh k h3 hk => ?_, fun hh j hj hf => ?_⟩
  · by_contra hc
    push Not at hc
    exact hh k hk ⟨by omega, fun j hj hjk => hc j hj hjk⟩
  · obtain ⟨i, hi, hji, hn⟩ := hh j (by have := hf.1; omega) hj
    exact hn (hf.2 i hi hji)

/-- C172: within the tolerances means that no unknown changed at any point by more than the smaller relative tolerance of
the largest magnitude of all unknowns plus the smaller absolute tolerance. -/
theorem C172_small (t : Tol K) (points : Nat) (x dx : Nat → Fin m → K) (hr : 0 ≤ min t.ver t.ier)
    (ha : 0 < min t.vea t.iea) :
    shootSmall t points x dx ↔
      ∀ i < points, ∀ r, |dx i r| < min t.ver t.ier * wrapper x points + min t.vea t.iea := by
  unfold shootSmall
  rw [wrapper_lt]
  have : 0 < min t.ver t.ier * wrapper x points + min t.vea t.iea :=
    add_pos_of_nonneg_of_pos (mul_nonneg hr (wrapper_nonneg _ _)) ha
  simp [this]

/-- C172: when an update is within the tolerances, the points before it fulfil the equations up to a bound that depends on
the tolerances and on the matrices. -/
theorem C172_residual {o : Newton.Opts K} {c : PCirc K m} {h : K} {points : Nat} {x x' dx : Nat → Fin m → K}
    (hs : shootStep o c h points x = some (x', dx)) {b : K} (hb : ∀ i < points, ∀ r, |dx i r| ≤ b) {i : Nat}
    (hi : i < points) (r : Fin m) :
    |Tass c h points x i r| ≤ (∑ j, |MA c h x i r j| + ∑ j, |(Pss.static c.mna c.D h).2 r j|) * b := by
  obtain ⟨hu, -, rfl⟩ := (step_eq o c h points x x' dx).1 hs
  have e := congrFun (Pss.C54_update _ _ (Tass c h points x) points hu.1 hu.2 i hi) r
  set d := Pss.dx (MA c h x) (Pss.static c.mna c.D h).2 (Tass c h points x) points with hd
  have bound : ∀ (M : Matrix (Fin m) (Fin m) K) (v : Fin m → K), (∀ j, |v j| ≤ b) → |(M *ᵥ v) r| ≤ (∑ j, |M r j|) * b := by
    intro M v hv
    rw [Finset.sum_mul]
    have e0 : (M *ᵥ v) r = ∑ j, M r j * v j := rfl
    rw [e0]
    refine (Finset.abs_sum_le_sum_abs (fun j => M r j * v j) Finset.univ).trans (Finset.sum_le_sum fun j _ => ?_)
    rw [abs_mul]
    exact mul_le_mul_of_nonneg_left (hv j) (abs_nonneg _)
  have h1 := bound (MA c h x i) (d i) (hb i hi)
  have h2 := bound (Pss.static c.mna c.D h).2 (d (if i = 0 then points - 1 else i - 1))
    (hb _ (by split_ifs <;> omega))
  have e' : Tass c h points x i r = -((MA c h x i *ᵥ d i) r) -
      ((Pss.static c.mna c.D h).2 *ᵥ d (if i = 0 then points - 1 else i - 1)) r := by
    simp only [Pi.add_apply, Pi.zero_apply] at e
    linear_combination e
  rw [e', add_mul]
  refine (abs_sub _ _).trans ?_
  rw [abs_neg]
  exact add_le_add h1 h2

/-! ### Linear circuits -/

theorem getTd_free (o : Newton.Opts K) (v : Fin m → K) : Newton.getTd o v [] (-1) = 1 := by
  simp [Newton.getTd, Newton.tdFirst]

/-- a circuit without non-linear elements -/
structure Linear (c : PCirc K m) : Prop where
  T : ∀ x, c.T x = 0
  J : ∀ x, c.J x = 0
  locked : c.locked = []

/-- the matrices of a linear circuit are regular: the step can be done and the response to the past dies out or is rotated -/
structure Regular (c : PCirc K m) (h : K) (points : Nat) : Prop where
  step : IsUnit (Pss.static c.mna c.D h).1.det
  period : IsUnit (1 - Pss.mat1 (fun _ => (Pss.static c.mna c.D h).1) (Pss.static c.mna c.D h).2 points).det

theorem linear_MA {c : PCirc K m} (hl : Linear c) (h : K) (x : Nat → Fin m → K) :
    MA c h x = fun _ => (Pss.static c.mna c.D h).1 := by
  funext i
  simp [MA, hl.J]

theorem linear_Tass {c : PCirc K m} (hl : Linear c) (h : K) (points : Nat) (x : Nat → Fin m → K) :
    Tass c h points x = Pss.tass c.mna c.D h c.Ts points x := by
  funext i
  simp only [Tass, Pss.tass, hl.T, zero_add]

theorem linear_step {c : PCirc K m} (hl : Linear c) {h : K} {points : Nat} (hr : Regular c h points) (o : Newton.Opts K)
    (x : Nat → Fin m → K) : ∃ x' dx, shootStep o c h points x = some (x', dx) ∧ (∀ i < points, Tass c h points x' i = 0) ∧
      ((∀ i < points, Tass c h points x i = 0) → ∀ i < points, dx i = 0) := by
  refine ⟨_, _, (step_eq o c h points x _ _).2 ⟨?_, rfl, rfl⟩, fun i hi => ?_, fun h0 i hi => ?_⟩
  · rw [linear_MA hl]
    exact ⟨fun _ _ => hr.step, hr.period⟩
  · rw [linear_Tass hl, linear_Tass hl, linear_MA hl]
    have := Pss.C54_linear_step c.mna c.D h c.Ts points x hr.step hr.period i hi
    simp only [hl.locked, getTd_free, one_smul]
    simp only [add_comm (Pss.dx _ _ _ _ _)]
    exact this
  · rw [linear_MA hl]
    refine (Pss.C54_unique _ _ _ points (by omega) (fun _ _ => hr.step) hr.period (fun _ => 0) (fun j hj => ?_) i hi).symm
    simp [h0 j hj]

/-- C172: for a linear circuit the method reports a solution of the discretised equations after at most five rounds,
wherever it starts. -/
theorem C172_linear {c : PCirc K m} (hl : Linear c) {h : K} {points : Nat} (hr : Regular c h points) (o : Newton.Opts K)
    {t : Tol K} (ht : 0 ≤ min t.ver t.ier) (ha : 0 < min t.vea t.iea) {maxIter : Nat} (hm : 4 ≤ maxIter)
    (x : Nat → Fin m → K) :
    ∃ y, shooting o t c h points maxIter x = some (some y) ∧
      ∀ i < points, (c.mna + (1 / h) • c.D) *ᵥ y i - ((1 / h) • c.D) *ᵥ y (if i = 0 then points - 1 else i - 1) + c.Ts i = 0 := by
  have horb : ∀ k, ∃ y, orbit o c h points x k = some y ∧ (0 < k → ∀ i < points, Tass c h points y i = 0) := by
    intro k
    induction k with
    | zero => exact ⟨x, rfl, fun h0 => absurd h0 (lt_irrefl _)⟩
    | succ k ih =>
      obtain ⟨y, hy, -⟩ := ih
      obtain ⟨x', dx, h1, h2, -⟩ := linear_step hl hr o y
      exact ⟨x', by simp [orbit, hy, h1], fun _ => h2⟩
  have hsm : ∀ k, 0 < k → SmallAt o t c h points x k := by
    intro k hk
    obtain ⟨y, hy, h0⟩ := horb k
    obtain ⟨x', dx, h1, h2, h3⟩ := linear_step hl hr o y
    refine ⟨y, x', dx, hy, h1, (C172_small t points x' dx ht ha).2 fun i hi r => ?_⟩
    rw [h3 (h0 hk) i hi, Pi.zero_apply, abs_zero]
    exact add_pos_of_nonneg_of_pos (mul_nonneg ht (wrapper_nonneg _ _)) ha
  have hex : ∃ k, 3 ≤ k ∧ ∀ j, j ≤ k → k ≤ j + 3 → SmallAt o t c h points x j :=
    ⟨4, by omega, fun j _ hj => hsm j (by omega)⟩
  classical
  obtain ⟨y, hy, h0⟩ := horb (Nat.find hex + 1)
  refine ⟨y, (C172_reported o t c h points maxIter x y).2 ⟨Nat.find hex, (Nat.find_spec hex).1, ?_, hy, (Nat.find_spec hex).2,
    fun k' h3 hk' => ?_⟩, fun i hi => ?_⟩
  · exact (Nat.find_min' hex ⟨by omega, fun j _ hj => hsm j (by omega)⟩).trans hm
  · have := Nat.find_min hex hk'
    push Not at this
    exact this h3
  · have := h0 (by omega) i hi
    rw [linear_Tass hl] at this
    rw [← this]
    simp only [Pss.tass, Pss.prev, Matrix.add_mulVec, neg_div, neg_smul, Matrix.neg_mulVec]
    abel

/-- C172: that solution is the only one. -/
theorem C172_unique {c : PCirc K m} {h : K} {points : Nat} (hr : Regular c h points)
    {y z : Nat → Fin m → K}
    (hy : ∀ i < points, (c.mna + (1 / h) • c.D) *ᵥ y i - ((1 / h) • c.D) *ᵥ y (if i = 0 then points - 1 else i - 1) + c.Ts i = 0)
    (hz : ∀ i < points, (c.mna + (1 / h) • c.D) *ᵥ z i - ((1 / h) • c.D) *ᵥ z (if i = 0 then points - 1 else i - 1) + c.Ts i = 0)
    (i : Nat) (hi : i < points) : y i = z i := by
  have u : ∀ d : Nat → Fin m → K, (∀ i < points, (Pss.static c.mna c.D h).1 *ᵥ d i +
      (Pss.static c.mna c.D h).2 *ᵥ d (if i = 0 then points - 1 else i - 1) + 0 = 0) →
      d i = Pss.dx (fun _ => (Pss.static c.mna c.D h).1) (Pss.static c.mna c.D h).2 (fun _ => 0) points i :=
    fun d hd => Pss.C54_unique _ _ (fun _ => 0) points (by omega) (fun _ _ => hr.step) hr.period d hd i hi
  have e1 := u (fun i => y i - z i) (fun j hj => by
    have a := hy j hj
    have b := hz j hj
    rw [← sub_zero (0 : Fin m → K)]
    nth_rewrite 3 [← a]
    rw [← b]
    simp only [Pss.static, Matrix.mulVec_sub, neg_div, neg_smul, Matrix.neg_mulVec]
    abel)
  have e2 := u (fun _ => 0) (fun j hj => by simp)
  rw [← e2] at e1
  exact sub_eq_zero.1 e1

/-! ### The brute-force method -/

theorem split_index {k r : Nat} (hr : r < m) : (k * m + r) / m = k ∧ (k * m + r) % m = r := by
  have hm : 0 < m := by omega
  constructor
  · rw [Nat.mul_comm, Nat.mul_add_div hm, Nat.div_eq_of_lt hr, Nat.add_zero]
  · rw [Nat.mul_comm, Nat.mul_add_mod, Nat.mod_eq_of_lt hr]

theorem blockMul_entries (M : Matrix (Fin m) (Fin m) K) (x : Nat → K) (k : Nat) (r : Fin m) :
    Pss.blockMul m (entries M) x k r = (M *ᵥ part m x k) r := by
  unfold Pss.blockMul
  have e0 : (M *ᵥ part m x k) r = ∑ j : Fin m, M r j * x (k * m + j) := rfl
  rw [e0, Fin.sum_univ_def, ← List.map_coe_finRange_eq_range, List.map_map]
  congr 1
  apply List.map_congr_left
  intro j _
  simp [entries, r.isLt, j.isLt]

/-- C173: the residual vanishes exactly if the last point equals the first and every other point follows from the one before
by implicit Euler. -/
theorem C173_equations (c : PCirc K m) (h : K) {points : Nat} (hp : 2 ≤ points) (x : Nat → K) :
    (∀ i < points * m, residuo c h points x i = 0) ↔
      part m x 0 = part m x (points - 1) ∧
      ∀ k, 1 ≤ k → k < points →
        (c.mna + (1 / h) • c.D) *ᵥ part m x k - ((1 / h) • c.D) *ᵥ part m x (k - 1) + c.T (part m x k) + c.Ts k = 0 := by
  have first : ∀ r : Fin m, residuo c h points x (0 * m + r) = part m x 0 r - part m x (points - 1) r := by
    intro r
    obtain ⟨d1, d2⟩ := split_index (k := 0) r.isLt
    simp only [residuo, bigT, bigTs, d1, if_true, add_zero]
    rw [Nat.zero_mul, Nat.zero_add]
    simp only [cmat]
    rw [Pss.C55_periodicity _ _ _ _ _ _ _ r.isLt hp]
    simp [part]
  have other : ∀ k, 1 ≤ k → k < points → ∀ r : Fin m, residuo c h points x (k * m + r) =
      ((c.mna + (1 / h) • c.D) *ᵥ part m x k - ((1 / h) • c.D) *ᵥ part m x (k - 1) + c.T (part m x k) + c.Ts k) r := by
    intro k h1 hk r
    obtain ⟨d1, d2⟩ := split_index (k := k) r.isLt
    have hk0 : k ≠ 0 := by omega
    have e1 : (fun i j => entries c.mna i j + entries c.D i j / h) = entries (c.mna + (1 / h) • c.D) := by
      funext i j
      by_cases hij : i < m ∧ j < m
      · simp [entries, hij]; ring
      · simp [entries, hij]
    have e2 : (fun i j => entries c.D i j / h) = entries ((1 / h) • c.D) := by
      funext i j
      by_cases hij : i < m ∧ j < m
      · simp [entries, hij]; ring
      · simp [entries, hij]
    simp only [residuo, bigT, bigTs, d1, d2, hk0, if_false, r.isLt, dif_pos, cmat]
    rw [Pss.C55_implicit_euler _ _ _ _ _ _ _ _ r.isLt hk h1, e1, e2, blockMul_entries, blockMul_entries]
    simp
  constructor
  · intro h0
    refine ⟨?_, fun k h1 hk => ?_⟩
    · funext r
      have := h0 (0 * m + r) (by
        have := r.isLt
        have : 1 * m ≤ points * m := Nat.mul_le_mul_right m (by omega)
        omega)
      rw [first] at this
      exact sub_eq_zero.1 this
    · funext r
      rw [← other k h1 hk]
      apply h0
      have := r.isLt
      have : (k + 1) * m ≤ points * m := Nat.mul_le_mul_right m (by omega)
      rw [Nat.add_mul] at this
      omega
  · rintro ⟨h1, h2⟩ i hi
    have hm : 0 < m := by
      rcases Nat.eq_zero_or_pos m with rfl | hm
      · omega
      · exact hm
    have hlt : i % m < m := Nat.mod_lt _ hm
    have hdiv : i / m < points := Nat.div_lt_of_lt_mul (by rw [Nat.mul_comm]; exact hi)
    have hi' : i = i / m * m + (⟨i % m, hlt⟩ : Fin m) := by
      rw [Nat.mul_comm]; exact (Nat.div_add_mod i m).symm
    rw [hi']
    rcases Nat.eq_zero_or_pos (i / m) with hz | hz
    · rw [hz, first, h1, sub_self]
    · rw [other _ hz hdiv, h2 _ hz hdiv, Pi.zero_apply]

/-- C173: for a linear circuit, a reported solution repeated with the period satisfies implicit Euler at all times, if the
sources have the period. -/
theorem C173_repeats {c : PCirc K m} (hT : ∀ x, c.T x = 0) (h : K) {points : Nat} (hp : 2 ≤ points) {x : Nat → K}
    (hx : ∀ i < points * m, residuo c h points x i = 0) {src : Nat → Fin m → K} (hs : ∀ k, src (k + (points - 1)) = src k)
    (h1 : ∀ k, 1 ≤ k → k < points → c.Ts k = src k) (k : Nat) :
    (c.mna + (1 / h) • c.D) *ᵥ part m x ((k + 1) % (points - 1)) - ((1 / h) • c.D) *ᵥ part m x (k % (points - 1)) +
      src (k + 1) = 0 := by
  obtain ⟨hper, heq⟩ := (C173_equations c h hp x).1 hx
  obtain ⟨N, rfl⟩ : ∃ N, points = N + 2 := ⟨points - 2, by omega⟩
  simp only [show N + 2 - 1 = N + 1 by omega] at *
  have hmod : k % (N + 1) < N + 1 := Nat.mod_lt _ (by omega)
  have hsrc : ∀ q, src (k % (N + 1) + 1 + (N + 1) * q) = src (k % (N + 1) + 1) := by
    intro q
    induction q with
    | zero => simp
    | succ q ih => rw [Nat.mul_succ, ← Nat.add_assoc, hs, ih]
  have hk1 : src (k + 1) = src (k % (N + 1) + 1) := by
    rw [← hsrc (k / (N + 1))]
    congr 1
    have := Nat.mod_add_div k (N + 1)
    omega
  have e := heq (k % (N + 1) + 1) (by omega) (by omega)
  rw [h1 _ (by omega) (by omega), hT, add_zero, Nat.add_sub_cancel] at e
  rw [hk1]
  have hnext : part m x ((k + 1) % (N + 1)) = part m x (k % (N + 1) + 1) := by
    by_cases hlast : k % (N + 1) = N
    · have : (k + 1) % (N + 1) = 0 := by
        rw [Nat.add_mod, hlast]
        rcases Nat.eq_zero_or_pos N with rfl | hN
        · simp
        · rw [Nat.mod_eq_of_lt (show 1 < N + 1 by omega), Nat.mod_self]
      rw [this, hlast, hper]
    · have : (k + 1) % (N + 1) = k % (N + 1) + 1 := by
        rw [Nat.add_mod, Nat.mod_eq_of_lt (show 1 < N + 1 by omega)]
        exact Nat.mod_eq_of_lt (by omega)
      rw [this]
  rw [hnext]
  exact e

/-- C173: hence a run of implicit Euler that starts from the first point goes through the reported points and repeats them. -/
theorem C173_run {c : PCirc K m} (hT : ∀ x, c.T x = 0) {h : K} (hr : IsUnit (c.mna + (1 / h) • c.D).det) {points : Nat}
    (hp : 2 ≤ points) {x : Nat → K} (hx : ∀ i < points * m, residuo c h points x i = 0) {src : Nat → Fin m → K}
    (hs : ∀ k, src (k + (points - 1)) = src k) (h1 : ∀ k, 1 ≤ k → k < points → c.Ts k = src k) {z : Nat → Fin m → K}
    (h0 : z 0 = part m x 0)
    (hz : ∀ k, (c.mna + (1 / h) • c.D) *ᵥ z (k + 1) - ((1 / h) • c.D) *ᵥ z k + src (k + 1) = 0) (k : Nat) :
    z k = part m x (k % (points - 1)) := by
  induction k with
  | zero => rw [h0, Nat.zero_mod]
  | succ k ih =>
    have a := hz k
    have b := C173_repeats hT h hp hx hs h1 k
    rw [ih] at a
    have : (c.mna + (1 / h) • c.D) *ᵥ z (k + 1) = (c.mna + (1 / h) • c.D) *ᵥ part m x ((k + 1) % (points - 1)) := by
      have := a.trans b.symm
      simpa using this
    have := congrArg (fun v => (c.mna + (1 / h) • c.D)⁻¹ *ᵥ v) this
    simpa only [Matrix.mulVec_mulVec, Matrix.nonsing_inv_mul _ hr, Matrix.one_mulVec] using this

/-! ### The loop of the brute-force method -/

theorem normOf_lt (n points lo hi : Nat) (x : Nat → K) (b : K) :
    normOf n points lo hi x < b ↔ 0 < b ∧ ∀ k < points, ∀ r, lo ≤ r → r < hi → |x (k * n + r)| < b := by
  unfold normOf
  rw [foldl_max_lt]
  have hmem : ∀ r, r ∈ (List.range hi).drop lo ↔ lo ≤ r ∧ r < hi := by
    intro r
    rw [List.mem_iff_getElem]
    constructor
    · rintro ⟨i, hi', rfl⟩
      simp only [List.length_drop, List.length_range] at hi'
      simp only [List.getElem_drop, List.getElem_range]
      omega
    · rintro ⟨h1, h2⟩
      refine ⟨r - lo, by simp; omega, ?_⟩
      simp only [List.getElem_drop, List.getElem_range]
      omega
  simp only [List.mem_flatMap, List.mem_range, List.mem_map, hmem]
  refine and_congr_right fun _ => ⟨fun hh k hk r h1 h2 => hh _ ⟨k, hk, r, ⟨h1, h2⟩, rfl⟩, ?_⟩
  rintro hh y ⟨k, hk, r, ⟨h1, h2⟩, rfl⟩
  exact hh k hk r h1 h2

theorem normOf_nonneg (n points lo hi : Nat) (x : Nat → K) : 0 ≤ normOf n points lo hi x := by
  by_contra hc
  exact lt_irrefl _ ((normOf_lt n points lo hi x 0).1 (not_le.1 hc)).1

/-- C173: the check passes exactly if every voltage changed by less than the tolerance of voltages and every current by
less than that of currents. -/
theorem C173_small {t : Tol K} (hv : 0 ≤ t.ver) (ha : 0 < t.vea) (hi : 0 ≤ t.ier) (hb : 0 < t.iea) (nv1 points : Nat)
    (x dx : Nat → K) :
    bfSmall t m nv1 points x dx ↔
      (∀ k < points, ∀ r < nv1, |dx (k * m + r)| < t.ver * normOf m points 0 nv1 x + t.vea) ∧
      ∀ k < points, ∀ r, nv1 ≤ r → r < m → |dx (k * m + r)| < t.ier * normOf m points nv1 m x + t.iea := by
  unfold bfSmall
  rw [normOf_lt, normOf_lt]
  have p1 : 0 < t.ver * normOf m points 0 nv1 x + t.vea :=
    add_pos_of_nonneg_of_pos (mul_nonneg hv (normOf_nonneg _ _ _ _ _)) ha
  have p2 : 0 < t.ier * normOf m points nv1 m x + t.iea :=
    add_pos_of_nonneg_of_pos (mul_nonneg hi (normOf_nonneg _ _ _ _ _)) hb
  simp only [p1, p2, true_and, Nat.zero_le, true_implies]
  refine and_congr_right fun _ => ⟨?_, fun hh => .inr hh⟩
  rintro ((h1 | h1) | h1)
  · intro k _ r h2 h3
    have := congrArg List.length h1
    simp at this
    omega
  · intro k hk
    omega
  · exact h1

/-- C173: what is reported is the result of a round whose update is within the tolerances. -/
theorem C173_reported {o : Newton.Opts K} {t : Tol K} {c : PCirc K m} {h : K} {nv1 points rem : Nat} {x y : Nat → K}
    (hy : bfGo o t c h nv1 points rem x = some (some y)) :
    ∃ z dx, bfStep o c h points z = some (y, dx) ∧ bfSmall t m nv1 points y dx := by
  induction rem generalizing x with
  | zero =>
    rw [bfGo] at hy
    cases hs : bfStep o c h points x with
    | none => simp [hs] at hy
    | some p =>
      obtain ⟨x', dx⟩ := p
      simp only [hs] at hy
      split_ifs at hy with hsm
      · simp only [Option.some.injEq] at hy
        subst hy
        exact ⟨x, dx, hs, hsm⟩
      · simp at hy
  | succ rem ih =>
    rw [bfGo] at hy
    cases hs : bfStep o c h points x with
    | none => simp [hs] at hy
    | some p =>
      obtain ⟨x', dx⟩ := p
      simp only [hs] at hy
      split_ifs at hy with hsm
      · simp only [Option.some.injEq] at hy
        subst hy
        exact ⟨x, dx, hs, hsm⟩
      · exact ih hy

theorem mulVec_fin (S : Nat) (M : Nat → Nat → K) (v : Fin S → K) (i : Fin S) :
    Pss.mulVec S M (fun j => if hj : j < S then v ⟨j, hj⟩ else 0) i = ((Matrix.of fun a b : Fin S => M a b) *ᵥ v) i := by
  unfold Pss.mulVec
  have e0 : ((Matrix.of fun a b : Fin S => M a b) *ᵥ v) i = ∑ j : Fin S, M i j * v j := rfl
  rw [e0, Fin.sum_univ_def, ← List.map_coe_finRange_eq_range, List.map_map]
  congr 1
  apply List.map_congr_left
  intro j _
  simp [j.isLt]

theorem mulVec_add (S : Nat) (M : Nat → Nat → K) (x y : Nat → K) (i : Nat) :
    Pss.mulVec S M (fun j => x j + y j) i = Pss.mulVec S M x i + Pss.mulVec S M y i := by
  unfold Pss.mulVec
  rw [← List.sum_map_add]
  congr 1
  apply List.map_congr_left
  intro j _
  ring

theorem bfTd_free (o : Newton.Opts K) {c : PCirc K m} (hl : c.locked = []) (points : Nat) (dx : Nat → K) :
    bfTd o c points dx = 1 := by
  unfold bfTd
  simp only [hl, getTd_free, abs_one]
  induction points with
  | zero => simp
  | succ p ih => rw [List.range_succ, List.map_append, List.foldl_append, ih]; simp

theorem bf_linear_step {c : PCirc K m} (hl : Linear c) {h : K} {points : Nat}
    (hr : IsUnit (Matrix.of fun i j : Fin (points * m) => cmat c h points i j).det) (o : Newton.Opts K) (x : Nat → K) :
    ∃ x' dx, bfStep o c h points x = some (x', dx) ∧ (∀ i < points * m, residuo c h points x' i = 0) ∧
      ((∀ i < points * m, residuo c h points x i = 0) → ∀ i, dx i = 0) := by
  have hM : bigM c h points x = Matrix.of fun i j : Fin (points * m) => cmat c h points i j := by
    ext i j
    simp [bigM, bigJ, hl.J]
  have hT : ∀ x, bigT c x = fun _ => 0 := by
    intro x
    funext i
    simp [bigT, hl.T]
  unfold bfStep
  rw [if_pos (by rw [hM]; exact hr)]
  refine ⟨_, _, rfl, fun i hi => ?_, fun h0 i => ?_⟩
  · simp only [bfTd_free o hl.locked, one_mul]
    have hres : ∀ y, residuo c h points y i = Pss.mulVec (points * m) (cmat c h points) y i + bigTs c i := by
      intro y
      simp [residuo, hT]
    rw [hres, mulVec_add, mulVec_fin (points * m) _ _ ⟨i, hi⟩]
    have e : ((Matrix.of fun a b : Fin (points * m) => cmat c h points a b) *ᵥ
        ((bigM c h points x)⁻¹ *ᵥ fun i : Fin (points * m) => -residuo c h points x i)) =
        fun i : Fin (points * m) => -residuo c h points x i := by
      rw [hM, Matrix.mulVec_mulVec, Matrix.mul_nonsing_inv _ hr, Matrix.one_mulVec]
    have e' := congrFun e ⟨i, hi⟩
    rw [e', hres]
    ring
  · by_cases hi : i < points * m
    · simp only [hi, dif_pos]
      have : (fun i : Fin (points * m) => -residuo c h points x i) = 0 := by
        funext j
        simp [h0 j j.isLt]
      rw [this, Matrix.mulVec_zero, Pi.zero_apply]
    · simp [hi]

/-- C173: for a linear circuit the method reports, after at most two rounds and from any start, a periodic solution of
implicit Euler. -/
theorem C173_linear {c : PCirc K m} (hl : Linear c) {h : K} {points : Nat} (hp : 2 ≤ points)
    (hr : IsUnit (Matrix.of fun i j : Fin (points * m) => cmat c h points i j).det) (o : Newton.Opts K) {t : Tol K}
    (hv : 0 ≤ t.ver) (ha : 0 < t.vea) (hi : 0 ≤ t.ier) (hb : 0 < t.iea) (nv1 : Nat) {maxIter : Nat} (hm : 1 ≤ maxIter)
    (x : Nat → K) :
    ∃ y, bfGo o t c h nv1 points maxIter x = some (some y) ∧ part m y 0 = part m y (points - 1) ∧
      ∀ k, 1 ≤ k → k < points →
        (c.mna + (1 / h) • c.D) *ᵥ part m y k - ((1 / h) • c.D) *ᵥ part m y (k - 1) + c.Ts k = 0 := by
  have fin : ∀ y, (∀ i < points * m, residuo c h points y i = 0) → part m y 0 = part m y (points - 1) ∧
      ∀ k, 1 ≤ k → k < points →
        (c.mna + (1 / h) • c.D) *ᵥ part m y k - ((1 / h) • c.D) *ᵥ part m y (k - 1) + c.Ts k = 0 := by
    intro y hy
    obtain ⟨a, b⟩ := (C173_equations c h hp y).1 hy
    refine ⟨a, fun k h1 hk => ?_⟩
    have := b k h1 hk
    rwa [hl.T, add_zero] at this
  obtain ⟨x1, d1, s1, r1, -⟩ := bf_linear_step hl hr o x
  obtain ⟨x2, d2, s2, r2, z2⟩ := bf_linear_step hl hr o x1
  have small2 : bfSmall t m nv1 points x2 d2 := by
    rw [C173_small hv ha hi hb]
    have z := z2 r1
    refine ⟨fun k _ r _ => ?_, fun k _ r _ _ => ?_⟩
    · rw [z, abs_zero]
      exact add_pos_of_nonneg_of_pos (mul_nonneg hv (normOf_nonneg _ _ _ _ _)) ha
    · rw [z, abs_zero]
      exact add_pos_of_nonneg_of_pos (mul_nonneg hi (normOf_nonneg _ _ _ _ _)) hb
  obtain ⟨M, rfl⟩ : ∃ M, maxIter = M + 1 := ⟨maxIter - 1, by omega⟩
  by_cases hs : bfSmall t m nv1 points x1 d1
  · exact ⟨x1, by rw [bfGo]; simp [s1, hs], fin x1 r1⟩
  · refine ⟨x2, ?_, fin x2 r2⟩
    rw [bfGo]
    simp only [s1, hs, if_false]
    cases M with
    | zero => rw [bfGo]; simp [s2, small2]
    | succ M => rw [bfGo]; simp [s2, small2]

end

/-! ### Newton's method -/

section
variable {m : Nat}

theorem bigJ_sum {K : Type} [Field K] [LinearOrder K] (c : PCirc K m) (points : Nat) (x e : Nat → K) {k : Nat} (hk : k < points) (r : Fin m) :
    ∑ j : Fin (points * m), bigJ c x (k * m + r) j * e j =
      if k = 0 then 0 else (c.J (part m x k) *ᵥ part m e k) r := by
  obtain ⟨d1, d2⟩ := split_index (k := k) r.isLt
  rw [← finProdFinEquiv.sum_comp, Fintype.sum_prod_type]
  have hval : ∀ (a : Fin points) (b : Fin m), ((finProdFinEquiv (a, b) : Fin (points * m)) : Nat) = a * m + b := by
    intro a b; simp [finProdFinEquiv, Nat.add_comm, Nat.mul_comm]
  simp only [hval]
  by_cases h0 : k = 0
  · simp [bigJ, h0]
  · rw [Finset.sum_eq_single (⟨k, hk⟩ : Fin points)]
    · rw [if_neg h0]
      refine Finset.sum_congr rfl fun b _ => ?_
      obtain ⟨g1, g2⟩ := split_index (k := k) b.isLt
      simp [bigJ, d1, d2, g1, g2, h0, part]
    · intro a _ ha
      refine Finset.sum_eq_zero fun b _ => ?_
      obtain ⟨g1, g2⟩ := split_index (k := a) b.isLt
      have : k ≠ a := fun h => ha (Fin.ext h.symm)
      simp [bigJ, d1, g1, this]
    · simp

/-- C173: the matrix of a round is the derivative of the residual, so the update solves the linearised equations, if the
conductances of the devices are the derivatives of their currents. -/
theorem C173_jacobian (c : PCirc ℝ m) (hJ : ∀ (v e : Fin m → ℝ), HasDerivAt (fun s : ℝ => c.T (v + s • e)) (c.J v *ᵥ e) 0)
    (h : ℝ) (points : Nat) (x e : Nat → ℝ) (i : Fin (points * m)) :
    HasDerivAt (fun s : ℝ => residuo c h points (fun j => x j + s * e j) i) ((bigM c h points x *ᵥ fun j => e j) i) 0 := by
  have hm : 0 < m := Nat.pos_of_ne_zero fun h0 => by subst h0; exact absurd i.isLt (by simp)
  obtain ⟨k, r, hk, hi⟩ : ∃ (k : Nat) (r : Fin m), k < points ∧ (i : Nat) = k * m + r :=
    ⟨i / m, ⟨i % m, Nat.mod_lt _ hm⟩, (Nat.div_lt_iff_lt_mul hm).2 i.isLt, (Nat.div_add_mod' _ _).symm⟩
  obtain ⟨d1, d2⟩ := split_index (k := k) r.isLt
  have h1 : HasDerivAt (fun s : ℝ => Pss.mulVec (points * m) (cmat c h points) (fun j => x j + s * e j) i)
      ((Matrix.of (fun a b : Fin (points * m) => cmat c h points a b) *ᵥ fun j => e j) i) 0 := by
    simp only [Pss.mulVec]
    have : ∀ s : ℝ, ((List.range (points * m)).map fun j => cmat c h points i j * (x j + s * e j)).sum =
        ∑ j : Fin (points * m), cmat c h points i j * (x j + s * e j) := by
      intro s
      rw [Fin.sum_univ_def, ← List.map_coe_finRange_eq_range, List.map_map]; rfl
    simp only [this]
    refine HasDerivAt.fun_sum fun j _ => ?_
    have := (((hasDerivAt_id' (0 : ℝ)).mul_const (e j)).const_add (x j)).const_mul (cmat c h points i j)
    simpa using this
  have h2 : HasDerivAt (fun s : ℝ => bigT c (fun j => x j + s * e j) i) (∑ j : Fin (points * m), bigJ c x i j * e j) 0 := by
    rw [hi, bigJ_sum c points x e hk r]
    by_cases h0 : k = 0
    · have hz : ∀ s : ℝ, bigT c (fun j => x j + s * e j) (k * m + r) = 0 := fun s => by rw [bigT, d1, if_pos h0]
      simp only [hz, if_pos h0]
      exact hasDerivAt_const _ _
    · simp only [bigT, d1, d2, h0, if_false, r.isLt, dif_pos]
      have := hasDerivAt_pi.1 (hJ (part m x k) (part m e k)) r
      exact this
  have h3 := (h1.add h2).add_const (bigTs c i)
  refine h3.congr_deriv ?_
  simp only [Matrix.mulVec, dotProduct, bigM, Matrix.of_apply, add_mul, Finset.sum_add_distrib]
  ring

/-- C173: the undamped update of a round is the step of Newton's method for the whole period. -/
theorem C173_newton (o : Newton.Opts ℝ) (c : PCirc ℝ m)
    (hJ : ∀ (v e : Fin m → ℝ), HasDerivAt (fun s : ℝ => c.T (v + s • e)) (c.J v *ᵥ e) 0) {h : ℝ} {points : Nat} {x x' dx : Nat → ℝ}
    (hs : bfStep o c h points x = some (x', dx)) {i : Nat} (hi : i < points * m) :
    HasDerivAt (fun s : ℝ => residuo c h points (fun j => x j + s * dx j) i) (-residuo c h points x i) 0 := by
  unfold bfStep at hs
  by_cases hu : IsUnit (bigM c h points x).det
  · rw [if_pos hu] at hs
    simp only [Option.some.injEq, Prod.mk.injEq] at hs
    obtain ⟨-, rfl⟩ := hs
    refine (C173_jacobian c hJ h points x _ ⟨i, hi⟩).congr_deriv ?_
    simp only [Fin.is_lt, dif_pos, Fin.eta]
    rw [Matrix.mulVec_mulVec, Matrix.mul_nonsing_inv _ hu, Matrix.one_mulVec]
  · rw [if_neg hu] at hs; simp at hs

/-- C172: the undamped updates of a round are the step of Newton's method for the discretised equations. -/
theorem C172_newton (o : Newton.Opts ℝ) (c : PCirc ℝ m)
    (hJ : ∀ (v e : Fin m → ℝ), HasDerivAt (fun s : ℝ => c.T (v + s • e)) (c.J v *ᵥ e) 0) {h : ℝ} {points : Nat}
    {x x' dx : Nat → Fin m → ℝ} (hs : shootStep o c h points x = some (x', dx)) {i : Nat} (hi : i < points) :
    HasDerivAt (fun s : ℝ => Tass c h points (fun k => x k + s • dx k) i) (-Tass c h points x i) 0 := by
  obtain ⟨hu, -, hdx⟩ := (step_eq o c h points x x' dx).1 hs
  have e := Pss.C54_update _ _ (Tass c h points x) points hu.1 hu.2 i hi
  rw [← hdx] at e
  have lin : ∀ (M : Matrix (Fin m) (Fin m) ℝ) (a b : Fin m → ℝ), HasDerivAt (fun s : ℝ => M *ᵥ (a + s • b)) (M *ᵥ b) 0 := by
    intro M a b
    have e0 : (fun s : ℝ => M *ᵥ (a + s • b)) = fun s : ℝ => M *ᵥ a + s • (M *ᵥ b) := by
      funext s; rw [Matrix.mulVec_add, Matrix.mulVec_smul]
    rw [e0]
    simpa using ((hasDerivAt_id' (0 : ℝ)).smul_const (M *ᵥ b)).const_add (M *ᵥ a)
  have hd := ((hJ (x i) (dx i)).add (((lin ((1 / h) • c.D) (x i) (dx i)).add (lin c.mna (x i) (dx i))).add
    (lin ((-1 / h) • c.D) (x (Pss.prev points i)) (dx (Pss.prev points i))))).add_const (c.Ts i)
  refine hd.congr_deriv ?_
  rw [eq_neg_iff_add_eq_zero]
  have hp : Pss.prev points i = if i = 0 then points - 1 else i - 1 := by simp [Pss.prev]
  rw [hp]
  have e1 : MA c h x i *ᵥ dx i = c.J (x i) *ᵥ dx i + (((1 / h) • c.D) *ᵥ dx i + c.mna *ᵥ dx i) := by
    simp only [MA, Pss.static, Matrix.add_mulVec]
    abel_nf
  have e2 : (Pss.static c.mna c.D h).2 = (-1 / h) • c.D := by simp [Pss.static]
  rw [e1, e2] at e
  rw [← e]
  abel
end

section
variable {K : Type} [Field K] [LinearOrder K] [IsStrictOrderedRing K] {m : Nat}
theorem foldl_min_spec (l : List K) (a : K) : (∀ y ∈ a :: l, l.foldl min a ≤ y) ∧ l.foldl min a ∈ a :: l := by
  induction l generalizing a with
  | nil => simp
  | cons b l ih =>
    obtain ⟨h1, h2⟩ := ih (min a b)
    simp only [List.foldl_cons]
    refine ⟨fun y hy => ?_, ?_⟩
    · have h0 := h1 (min a b) List.mem_cons_self
      rcases List.mem_cons.1 hy with rfl | hy
      · exact h0.trans (min_le_left _ _)
      · rcases List.mem_cons.1 hy with rfl | hy
        · exact h0.trans (min_le_right _ _)
        · exact h1 _ (List.mem_cons_of_mem _ hy)
    · rcases List.mem_cons.1 h2 with h | h
      · rcases min_choice a b with e | e <;> rw [h, e] <;> simp
      · simp [h]

/-- C173: the iteration starts with the vector given at every point, and with zeros if it has the wrong size. -/
theorem C173_start {n points : Nat} (l : List K) :
    (l.length = n → ∀ k < points, ∀ r : Fin n, part n (buildX n points (some l)) k r = l.getD r 0) ∧
      (l.length ≠ n → buildX n points (some l) = fun _ => 0) ∧ buildX n points (none : Option (List K)) = fun _ => 0 := by
  refine ⟨fun hl k hk r => ?_, fun hl => ?_, rfl⟩
  · obtain ⟨d1, d2⟩ := split_index (k := k) r.isLt
    have hlt : k * n + r < points * n := by
      have : (k + 1) * n ≤ points * n := Nat.mul_le_mul_right n hk
      have := r.isLt
      rw [Nat.add_mul] at *
      omega
    simp only [part, buildX]
    rw [if_pos ⟨hl, hlt⟩, d2]
  · funext i
    simp [buildX, hl]

/-- C173: all points are damped by the smallest factor of a point. -/
theorem C173_damping (o : Newton.Opts K) (c : PCirc K m) {points : Nat} (hp : 0 < points) (dx : Nat → K) :
    (∀ k < points, bfTd o c points dx ≤ |Newton.getTd o (part m dx k) c.locked (-1)|) ∧
      ∃ k < points, bfTd o c points dx = |Newton.getTd o (part m dx k) c.locked (-1)| := by
  have := foldl_min_spec ((List.range points).map fun k => |Newton.getTd o (part m dx k) c.locked (-1)|)
    |Newton.getTd o (part m dx 0) c.locked (-1)|
  refine ⟨fun k hk => this.1 _ (List.mem_cons_of_mem _ (List.mem_map.2 ⟨k, List.mem_range.2 hk, rfl⟩)), ?_⟩
  rcases List.mem_cons.1 this.2 with h | h
  · exact ⟨0, hp, h⟩
  · obtain ⟨k, hk, e⟩ := List.mem_map.1 h
    exact ⟨k, List.mem_range.1 hk, e.symm⟩
end

/-- a device with current proportional to the cube of its voltage -/
noncomputable def cubic : PCirc ℝ 1 where
  mna := 1
  D := 1
  T := fun v r => v r ^ 3
  J := fun v => Matrix.diagonal fun r => 3 * v r ^ 2
  Ts := fun _ _ => 1
  locked := []

example (v e : Fin 1 → ℝ) : HasDerivAt (fun s : ℝ => cubic.T (v + s • e)) (cubic.J v *ᵥ e) 0 := by
  refine hasDerivAt_pi.2 fun r => ?_
  have := ((((hasDerivAt_id' (0 : ℝ)).mul_const (e r)).const_add (v r)).fun_pow 3)
  simpa [cubic, Matrix.mulVec_diagonal] using this

/-! ### Examples -/

/-- a resistor and a capacitor driven by a current that changes its sign -/
def rc : PCirc ℚ 1 := ⟨!![1], !![1], fun _ => 0, fun _ => 0, fun k => if k = 0 then ![-1] else ![1], []⟩

theorem rc_linear : Linear rc := ⟨fun _ => rfl, fun _ => rfl, rfl⟩

theorem rc_static : Pss.static rc.mna rc.D 1 = (!![2], !![-1]) := by
  refine Prod.ext ?_ ?_ <;> (ext i j; fin_cases i; fin_cases j; simp [Pss.static, rc]) <;> norm_num

theorem rc_regular : Regular rc 1 3 := by
  have hi : (!![2] : Matrix (Fin 1) (Fin 1) ℚ)⁻¹ = !![1 / 2] := by
    apply Matrix.inv_eq_right_inv
    ext i j
    fin_cases i
    fin_cases j
    simp [Matrix.mul_apply]
  refine ⟨?_, ?_⟩
  · rw [rc_static, isUnit_iff_ne_zero, Matrix.det_fin_one]
    simp
  · rw [rc_static]
    simp only [Pss.mat1, hi]
    rw [isUnit_iff_ne_zero, Matrix.det_fin_one]
    simp
    norm_num

/-- the method converges from everywhere -/
example (o : Newton.Opts ℚ) (x : Nat → Fin 1 → ℚ) : ∃ y,
    shooting o ⟨1 / 1000, 1 / 1000000, 1 / 1000, 1 / 1000000000⟩ rc 1 3 100 x = some (some y) ∧
    y 0 = ![1 / 7] ∧ y 1 = ![-3 / 7] ∧ y 2 = ![-5 / 7] := by
  obtain ⟨y, h1, h2⟩ := C172_linear rc_linear rc_regular o (t := ⟨1 / 1000, 1 / 1000000, 1 / 1000, 1 / 1000000000⟩)
    (by norm_num) (by norm_num) (maxIter := 100) (by omega) x
  have e0 := congrFun (h2 0 (by omega)) 0
  have e1 := congrFun (h2 1 (by omega)) 0
  have e2 := congrFun (h2 2 (by omega)) 0
  simp [rc, dotProduct] at e0 e1 e2
  refine ⟨y, h1, ?_, ?_, ?_⟩ <;> (funext i; fin_cases i; simp; linarith)

theorem rc_cmat : IsUnit (Matrix.of fun i j : Fin (3 * 1) => cmat rc 1 3 i j).det := by
  rw [isUnit_iff_ne_zero]
  show (Matrix.of fun i j : Fin 3 => cmat rc 1 3 i j).det ≠ 0
  simp only [Matrix.det_fin_three]
  decide +kernel

example (o : Newton.Opts ℚ) (x : Nat → ℚ) : ∃ y,
    bfGo o ⟨1 / 1000, 1 / 1000000, 1 / 1000, 1 / 1000000000⟩ rc 1 1 3 100 x = some (some y) ∧
    y 0 = -1 ∧ y 1 = -1 ∧ y 2 = -1 := by
  obtain ⟨y, h1, h2, h3⟩ := C173_linear rc_linear (by omega) rc_cmat o
    (t := ⟨1 / 1000, 1 / 1000000, 1 / 1000, 1 / 1000000000⟩)
    (by norm_num) (by norm_num) (by norm_num) (by norm_num) 1 (maxIter := 100) (by omega) x
  have e0 := congrFun h2 0
  have e1 := congrFun (h3 1 (by omega) (by omega)) 0
  have e2 := congrFun (h3 2 (by omega) (by omega)) 0
  simp [rc, part, dotProduct] at e0 e1 e2
  exact ⟨y, h1, by linarith, by linarith, by linarith⟩

end Verif.PssRun
