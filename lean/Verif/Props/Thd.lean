import Verif.Props.Fourier

/-!
C105 and C106: the values computed by the Fourier post-processing for signals composed of harmonics.
-/

namespace Verif.Fourier
open Complex

/-- A signal of harmonics of `f`. -/
noncomputable def harmonics (Q : Nat) (a b : Nat → ℝ) (f t : ℝ) : ℝ :=
  ∑ q ∈ Finset.range Q, (a q * Real.cos (2 * Real.pi * q * f * t) +
    b q * Real.sin (2 * Real.pi * q * f * t))

/-- Sum of the powers of a root of unity. -/
theorem root_sum (N : Nat) (hN : 0 < N) (r : ℤ) :
    ∑ m ∈ Finset.range N, cexp (2 * Real.pi * I * r * m / N) =
      if (N : ℤ) ∣ r then (N : ℂ) else 0 := by
  have hNC : (N : ℂ) ≠ 0 := by exact_mod_cast hN.ne'
  have hpow : ∀ m : ℕ, cexp (2 * Real.pi * I * r * m / N) = cexp (2 * Real.pi * I * r / N) ^ m := by
    intro m
    rw [← Complex.exp_nat_mul]
    congr 1
    ring
  simp only [hpow]
  split_ifs with h
  · obtain ⟨k, rfl⟩ := h
    have : cexp (2 * Real.pi * I * ((N * k : ℤ) : ℂ) / N) = 1 := by
      rw [Complex.exp_eq_one_iff]
      refine ⟨k, ?_⟩
      push_cast
      field_simp
    rw [this]
    simp
  · have hne : cexp (2 * Real.pi * I * r / N) ≠ 1 := by
      intro he
      rw [Complex.exp_eq_one_iff] at he
      obtain ⟨k, hk⟩ := he
      apply h
      refine ⟨k, ?_⟩
      have hpi : (Real.pi : ℂ) ≠ 0 := by exact_mod_cast Real.pi_ne_zero
      have : (r : ℂ) = N * k := by
        field_simp at hk
        exact hk
      exact_mod_cast this
    rw [geom_sum_eq hne, ← Complex.exp_nat_mul]
    have : cexp (N * (2 * Real.pi * I * r / N)) = 1 := by
      rw [Complex.exp_eq_one_iff]
      refine ⟨r, ?_⟩
      field_simp
    rw [this]
    simp

/-- Cosine and sine of a phase, as exponentials. -/
theorem trig_exp (a b θ : ℝ) : ((a * Real.cos θ + b * Real.sin θ : ℝ) : ℂ) =
    (a - b * I) / 2 * cexp (θ * I) + (a + b * I) / 2 * cexp (-(θ * I)) := by
  push_cast
  rw [Complex.cos, Complex.sin, show -(θ : ℂ) * I = -(θ * I) from by ring]
  linear_combination (b * (cexp (-(θ * I)) - cexp (θ * I)) / 2) * 0 * Complex.I_sq

/-- The transform of one harmonic. -/
theorem dft_one (N n q j : Nat) (hN : 0 < N) (hn : 0 < n) (h : (q + j) * n < N) (a b φ : ℝ) :
    ∑ m ∈ Finset.range N, ((a * Real.cos (φ + 2 * Real.pi * q * n * m / N) +
        b * Real.sin (φ + 2 * Real.pi * q * n * m / N) : ℝ) : ℂ) *
        cexp (-(2 * Real.pi * I * (j * n : ℕ) * m / N)) =
      (if q = j then (N : ℂ) * ((a - b * I) / 2 * cexp (φ * I)) else 0) +
      (if q + j = 0 then (N : ℂ) * ((a + b * I) / 2 * cexp (-(φ * I))) else 0) := by
  have hNC : (N : ℂ) ≠ 0 := by exact_mod_cast hN.ne'
  have e : ∀ m : ℕ, ((a * Real.cos (φ + 2 * Real.pi * q * n * m / N) +
        b * Real.sin (φ + 2 * Real.pi * q * n * m / N) : ℝ) : ℂ) *
        cexp (-(2 * Real.pi * I * (j * n : ℕ) * m / N)) =
      ((a - b * I) / 2 * cexp (φ * I)) *
        cexp (2 * Real.pi * I * (((q : ℤ) - j) * n : ℤ) * m / N) +
      ((a + b * I) / 2 * cexp (-(φ * I))) *
        cexp (2 * Real.pi * I * ((-((q : ℤ) + j)) * n : ℤ) * m / N) := by
    intro m
    have c1 : cexp ((φ + 2 * Real.pi * q * n * m / N : ℝ) * I) *
        cexp (-(2 * Real.pi * I * (j * n : ℕ) * m / N)) =
        cexp (φ * I) * cexp (2 * Real.pi * I * (((q : ℤ) - j) * n : ℤ) * m / N) := by
      rw [← Complex.exp_add, ← Complex.exp_add]
      congr 1
      push_cast
      ring
    have c2 : cexp (-((φ + 2 * Real.pi * q * n * m / N : ℝ) * I)) *
        cexp (-(2 * Real.pi * I * (j * n : ℕ) * m / N)) =
        cexp (-(φ * I)) * cexp (2 * Real.pi * I * ((-((q : ℤ) + j)) * n : ℤ) * m / N) := by
      rw [← Complex.exp_add, ← Complex.exp_add]
      congr 1
      push_cast
      ring
    rw [trig_exp, add_mul]
    exact congrArg₂ (· + ·) (by rw [mul_assoc, c1, ← mul_assoc]) (by rw [mul_assoc, c2, ← mul_assoc])
  simp only [e]
  rw [Finset.sum_add_distrib, ← Finset.mul_sum, ← Finset.mul_sum, root_sum N hN, root_sum N hN]
  have h1 : ((N : ℤ) ∣ ((q : ℤ) - j) * n) ↔ q = j := by
    constructor
    · intro hd
      have hlt : |((q : ℤ) - j) * n| < N := by
        have hc : |((q : ℤ) - j) * n| ≤ ((q + j) * n : ℕ) := by
          rw [abs_mul, Nat.abs_cast]
          push_cast
          apply mul_le_mul_of_nonneg_right _ (by positivity)
          rw [abs_le]
          constructor <;> omega
        have : (((q + j) * n : ℕ) : ℤ) < N := by exact_mod_cast h
        omega
      have h0 := Int.eq_zero_of_abs_lt_dvd hd hlt
      rcases mul_eq_zero.1 h0 with h0 | h0
      · omega
      · omega
    · rintro rfl
      simp
  have h2 : ((N : ℤ) ∣ (-((q : ℤ) + j)) * n) ↔ q + j = 0 := by
    constructor
    · intro hd
      have hlt : |(-((q : ℤ) + j)) * n| < N := by
        have hc : |(-((q : ℤ) + j)) * n| = ((q + j) * n : ℕ) := by
          rw [abs_mul, Nat.abs_cast, abs_neg, abs_of_nonneg (by positivity)]
          push_cast
          rfl
        rw [hc]
        exact_mod_cast h
      have h0 := Int.eq_zero_of_abs_lt_dvd hd hlt
      rcases mul_eq_zero.1 h0 with h0 | h0
      · omega
      · omega
    · intro h0
      have hq : q = 0 := by omega
      have hj : j = 0 := by omega
      subst hq; subst hj
      simp
  simp only [h1, h2]
  congr 1
  · split_ifs <;> ring
  · split_ifs <;> ring

/-- The transform of a sum of harmonics, sampled `N` times in `n` periods, at the bin of the `j`-th
harmonic. -/
theorem dft_harmonics (N n Q j : Nat) (hN : 0 < N) (hn : 0 < n)
    (hQ : ∀ q < Q, ∀ j < Q, (q + j) * n < N) (hj : j < Q) (a b : Nat → ℝ) (f t0 : ℝ) (hf : 0 < f) :
    dft N (fun m => (harmonics Q a b f (t0 + m * ((n / f) / N)) : ℝ)) (j * n) =
      if j = 0 then (N : ℂ) * a 0
      else (N : ℂ) * ((a j - b j * I) / 2 * cexp ((2 * Real.pi * j * f * t0 : ℝ) * I)) := by
  have hNR : (N : ℝ) ≠ 0 := by exact_mod_cast hN.ne'
  have hfR : f ≠ 0 := hf.ne'
  unfold dft
  have e : ∀ m : ℕ, ((harmonics Q a b f (t0 + m * ((n / f) / N)) : ℝ) : ℂ) =
      ∑ q ∈ Finset.range Q, ((a q * Real.cos (2 * Real.pi * q * f * t0 + 2 * Real.pi * q * n * m / N) +
        b q * Real.sin (2 * Real.pi * q * f * t0 + 2 * Real.pi * q * n * m / N) : ℝ) : ℂ) := by
    intro m
    unfold harmonics
    rw [Complex.ofReal_sum]
    apply Finset.sum_congr rfl
    intro q _
    have : 2 * Real.pi * q * f * (t0 + m * ((n / f) / N)) =
        2 * Real.pi * q * f * t0 + 2 * Real.pi * q * n * m / N := by
      field_simp
    rw [this]
  simp only [e, Finset.sum_mul]
  rw [Finset.sum_comm]
  have hsum : ∀ q ∈ Finset.range Q, ∑ m ∈ Finset.range N,
      ((a q * Real.cos (2 * Real.pi * q * f * t0 + 2 * Real.pi * q * n * m / N) +
        b q * Real.sin (2 * Real.pi * q * f * t0 + 2 * Real.pi * q * n * m / N) : ℝ) : ℂ) *
        cexp (-(2 * Real.pi * I * (j * n : ℕ) * m / N)) =
      if q = j then (if j = 0 then (N : ℂ) * a 0
        else (N : ℂ) * ((a j - b j * I) / 2 * cexp ((2 * Real.pi * j * f * t0 : ℝ) * I))) else 0 := by
    intro q hq
    rw [dft_one N n q j hN hn (hQ q (Finset.mem_range.1 hq) j hj)]
    by_cases hqj : q = j
    · subst hqj
      by_cases h0 : q = 0
      · subst h0
        simp
        ring
      · rw [if_pos rfl, if_pos rfl, if_neg h0, if_neg (by omega), add_zero]
    · rw [if_neg hqj, if_neg hqj, if_neg (by omega), add_zero]
  rw [Finset.sum_congr rfl hsum, Finset.sum_ite_eq' (Finset.range Q) j, if_pos (by simpa using hj)]

theorem norm_coeff (N : Nat) (a b θ : ℝ) :
    ‖(N : ℂ) * ((a - b * I) / 2 * cexp (θ * I))‖ ^ 2 = (N / 2 : ℝ) ^ 2 * (a ^ 2 + b ^ 2) := by
  have h1 : ‖(a : ℂ) - b * I‖ ^ 2 = a ^ 2 + b ^ 2 := by
    rw [← Complex.normSq_eq_norm_sq, Complex.normSq_apply]
    simp
    ring
  rw [norm_mul, norm_mul, norm_div, Complex.norm_exp_ofReal_mul_I, Complex.norm_natCast, mul_one,
    mul_pow, div_pow, h1]
  simp
  ring

/-- Distortion of a list of values with these magnitudes. -/
theorem thd_eq (N Q : Nat) (hN : 0 < N) (hQ : 2 ≤ Q) (F : Nat → ℂ) (a b : Nat → ℝ)
    (h : ∀ j, 1 ≤ j → j < Q → ‖F j‖ ^ 2 = (N / 2 : ℝ) ^ 2 * (a j ^ 2 + b j ^ 2)) :
    thd ((List.range Q).map F) =
      some (Real.sqrt (((List.range (Q - 2)).map (fun k => a (k + 2) ^ 2 + b (k + 2) ^ 2)).sum) /
        Real.sqrt (a 1 ^ 2 + b 1 ^ 2)) := by
  obtain ⟨P, rfl⟩ : ∃ P, Q = P + 2 := ⟨Q - 2, by omega⟩
  have hN2 : (0 : ℝ) < N / 2 := by
    have : (0 : ℝ) < N := by exact_mod_cast hN
    linarith
  rw [List.range_succ_eq_map, List.range_succ_eq_map]
  simp only [List.map_cons, List.map_map, thd, Nat.add_sub_cancel]
  have hsum : ((List.range P).map ((fun z => ‖z‖ ^ 2) ∘ (F ∘ Nat.succ ∘ Nat.succ))).sum =
      (N / 2 : ℝ) ^ 2 * ((List.range P).map (fun k => a (k + 2) ^ 2 + b (k + 2) ^ 2)).sum := by
    rw [← List.sum_map_mul_left]
    congr 1
    apply List.map_congr_left
    intro k hk
    have hk' := List.mem_range.1 hk
    exact h (k + 2) (by omega) (by omega)
  have h1 : ‖F 1‖ = N / 2 * Real.sqrt (a 1 ^ 2 + b 1 ^ 2) := by
    have := h 1 (by omega) (by omega)
    rw [← Real.sqrt_sq (norm_nonneg (F 1)), this, Real.sqrt_mul (by positivity),
      Real.sqrt_sq hN2.le]
  have hF1 : F (Nat.succ 0) = F 1 := rfl
  congr 1
  rw [show ‖F (Nat.succ 0)‖ = _ from h1]
  rw [show ((List.range P).map ((fun z => ‖z‖ ^ 2) ∘ F ∘ Nat.succ ∘ Nat.succ)).sum = _ from hsum,
    Real.sqrt_mul (by positivity), Real.sqrt_sq hN2.le,
    mul_div_mul_left _ _ hN2.ne']

/-- C105: for a signal composed of DC and the first nine harmonics, `.four` computes the total
harmonic distortion: the root of the sum of the squared amplitudes of the harmonics from the second
on, over the amplitude of the fundamental. -/
theorem C105_fourier (p : Nat) (hp : 0 < p) (fund tstop : ℝ) (hf : 0 < fund) (a b : Nat → ℝ) :
    thd (fValues p fund tstop (harmonics 10 a b fund)) =
      some (Real.sqrt (((List.range 8).map (fun k => a (k + 2) ^ 2 + b (k + 2) ^ 2)).sum) /
        Real.sqrt (a 1 ^ 2 + b 1 ^ 2)) := by
  rw [C103_values p hp fund tstop hf]
  apply thd_eq (20 * p) 10 (by omega) (by norm_num)
  intro j h1 hj
  have := dft_harmonics (20 * p) p 10 j (by omega) hp (by
    intro q hq j hj
    have : (q + j) * p ≤ 18 * p := Nat.mul_le_mul_right p (by omega)
    omega) hj a b fund (tstop - p / fund) hf
  push_cast at this ⊢
  rw [this, if_neg (by omega)]
  have hn := norm_coeff (20 * p) (a j) (b j) (2 * Real.pi * j * fund * (tstop - p / fund))
  push_cast at hn
  exact hn

/-- C105: `spicefft` with `freq` computes it as well, from the harmonics that it returns. -/
theorem C105_spicefft (n : Nat) (hn : 2 ≤ n) (freq stop : ℝ) (hf : 0 < freq) (a b : Nat → ℝ) :
    thd (sValues n freq stop (harmonics n a b freq)) =
      some (Real.sqrt (((List.range (n - 2)).map (fun k => a (k + 2) ^ 2 + b (k + 2) ^ 2)).sum) /
        Real.sqrt (a 1 ^ 2 + b 1 ^ 2)) := by
  have hv : sValues n freq stop (harmonics n a b freq) = (List.range n).map (fun j =>
      dft (2 * n * n + 1) (fun m => (harmonics n a b freq
        (stop - n / freq + m * ((n / freq) / (2 * n * n + 1 : ℕ))) : ℝ)) (j * n)) := by
    unfold sValues
    rw [sNum_eq n freq (by omega) hf]
    simp only
    rw [rfft_samples, every_map n _ (by omega), show (2 * n * n + 1) / 2 = n * n from by
      rw [mul_assoc]; omega, half_len n (by omega)]
    apply List.map_congr_left
    intro j _
    congr 1
    funext m
    congr 4
    ring
  rw [hv]
  apply thd_eq (2 * n * n + 1) n (by omega) hn
  intro j h1 hj
  have := dft_harmonics (2 * n * n + 1) n n j (by omega) (by omega) (by
    intro q hq j hj
    have : (q + j) * n ≤ (2 * n) * n := Nat.mul_le_mul_right n (by omega)
    omega) hj a b freq (stop - n / freq) hf
  rw [this, if_neg (by omega)]
  exact norm_coeff _ _ _ _

/-- A pure sine has no distortion. -/
example (tstop : ℝ) : thd (fValues 3 1000 tstop
    (harmonics 10 (fun _ => 0) (fun q => if q = 1 then 5 else 0) 1000)) = some 0 := by
  rw [C105_fourier 3 (by norm_num) 1000 tstop (by norm_num)]
  simp

/-- With a single period in the interval `spicefft` has no fundamental to refer to. -/
theorem C105_one_period_refuted (freq stop : ℝ) (hf : 0 < freq) (v : ℝ → ℝ) :
    thd (sValues 1 freq stop v) = none := by
  unfold sValues
  rw [sNum_eq 1 freq (by norm_num) hf]
  simp only
  rw [rfft_samples, every_map 1 _ (by norm_num)]
  simp [thd]

/-- C106: what is printed as the DC component of a signal of harmonics is its DC value multiplied by
the number of samples. -/
theorem C106_printed_partial (p : Nat) (hp : 0 < p) (fund tstop : ℝ) (hf : 0 < fund)
    (a b : Nat → ℝ) :
    dcPrinted (fValues p fund tstop (harmonics 10 a b fund)) = some ((20 * p : ℕ) * a 0) := by
  rw [C103_values p hp fund tstop hf]
  have := dft_harmonics (20 * p) p 10 0 (by omega) hp (by
    intro q hq j hj
    have : (q + j) * p ≤ 18 * p := Nat.mul_le_mul_right p (by omega)
    omega) (by norm_num) a b fund (tstop - p / fund) hf
  rw [if_pos rfl] at this
  rw [Nat.zero_mul] at this
  push_cast at this ⊢
  simp [dcPrinted, List.range_succ_eq_map, this]

/-- C106 is false: the printed DC component of a signal with a DC component differs from it. -/
theorem C106_dc_refuted (p : Nat) (hp : 0 < p) (fund tstop : ℝ) (hf : 0 < fund)
    (a b : Nat → ℝ) (h0 : a 0 ≠ 0) :
    dcPrinted (fValues p fund tstop (harmonics 10 a b fund)) ≠ some ((a 0 : ℝ) : ℂ) := by
  rw [C106_printed_partial p hp fund tstop hf a b]
  intro h
  have h := Option.some.inj h
  have h2 : ((20 * p : ℕ) : ℝ) * a 0 = a 0 := by exact_mod_cast h
  have h3 : ((20 * p : ℕ) : ℝ) = 1 := mul_right_cancel₀ h0 (by rw [h2, one_mul])
  have h4 : 20 * p = 1 := by exact_mod_cast h3
  omega

end Verif.Fourier
