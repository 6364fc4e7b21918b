import Mathlib.Analysis.SpecialFunctions.Trigonometric.Basic
import Mathlib.Analysis.Complex.RealDeriv
import Mathlib.Analysis.SpecialFunctions.ExpDeriv
import Verif.Props.AcLaws
import Verif.Props.Converge

/-!
C190: transient analysis with sinusoidal sources and AC analysis agree.
-/

namespace Verif.Phasor
open Verif.Op Verif.Tran Verif.Converge Matrix

variable {m : Nat} {S B : Matrix (Fin m) (Fin m) ℝ} {n : Net ℝ m}

/-! ### Sinusoids -/

/-- the signals with phasors `X` at angular frequency `w` -/
noncomputable def signal (X : Fin m → ℂ) (w t : ℝ) : Fin m → ℝ := fun i => (X i * Complex.exp (Complex.I * w * t)).re

theorem signal_deriv (X : Fin m → ℂ) (w t : ℝ) (i : Fin m) :
    HasDerivAt (fun s => signal X w s i) (signal (fun i => Complex.I * w * X i) w t i) t := by
  have h : HasDerivAt (fun z : ℂ => X i * Complex.exp (Complex.I * w * z)) (Complex.I * w * X i * Complex.exp (Complex.I * w * t)) (t : ℂ) := by
    have h1 : HasDerivAt (fun z : ℂ => Complex.I * w * z) (Complex.I * w) (t : ℂ) := by
      simpa using (hasDerivAt_id (t : ℂ)).const_mul (Complex.I * (w : ℂ))
    exact (h1.cexp.const_mul (X i)).congr_deriv (by ring)
  exact h.real_of_complex

/-- phasors that solve the AC equations at angular frequency `v`: signals of any frequency `w` with them, and with `v`
instead of `w` in the derivatives, solve the equations of the transient analysis -/
theorem signal_eq {c : Ac.AcIn m} (h1 : c.mna = n.mna) (h2 : c.AC = n.D) (h3 : c.J = 0) (h4 : c.nn = n.nn) (h5 : c.gmin = n.gmin)
    {v w : ℝ} {X : Fin m → ℂ} (hX : Ac.Y c v c.gmin *ᵥ X + c.Nac = 0) {t : ℝ} (hN : n.N + n.Tt t = signal c.Nac w t) :
    n.mna *ᵥ signal X w t + gminMat n.nn n.gmin *ᵥ signal X w t + n.D *ᵥ signal (fun i => Complex.I * v * X i) w t + n.N + n.Tt t = 0 := by
  rw [add_assoc _ n.N, hN]
  funext i
  have h := congrArg (fun z : ℂ => (z * Complex.exp (Complex.I * w * t)).re) (congrFun hX i)
  simp only [Pi.add_apply, Pi.zero_apply, zero_mul, Complex.zero_re, add_mul, Complex.add_re] at h ⊢
  rw [← h]
  congr 1
  simp only [mulVec, dotProduct, Ac.Y, Matrix.of_apply, ← Finset.sum_add_distrib, Finset.sum_mul, Complex.re_sum, h1, h2, h3, h4, h5]
  refine Finset.sum_congr rfl fun j _ => ?_
  have e1 : (((n.mna i j + (0 : Matrix (Fin m) (Fin m) ℝ) i j : ℝ) : ℂ) + Complex.I * v * n.D i j +
      if i = j ∧ i.val < n.nn then (n.gmin : ℂ) else 0) * X j * Complex.exp (Complex.I * w * t) =
      ((n.mna i j : ℝ) : ℂ) * (X j * Complex.exp (Complex.I * w * t)) +
      ((gminMat n.nn n.gmin i j : ℝ) : ℂ) * (X j * Complex.exp (Complex.I * w * t)) +
      ((n.D i j : ℝ) : ℂ) * (Complex.I * v * X j * Complex.exp (Complex.I * w * t)) := by
    have : (if i = j ∧ i.val < n.nn then (n.gmin : ℂ) else 0) = ((gminMat n.nn n.gmin i j : ℝ) : ℂ) := by
      simp only [gminMat, Matrix.diagonal_apply]
      by_cases h6 : i = j <;> by_cases h7 : i.val < n.nn <;> simp [h6, h7]
      · rw [h6] at h7
        simp [h7]
      · rw [h6] at h7
        simp [h7]
    rw [this, Matrix.zero_apply, add_zero]
    ring
  rw [e1]
  simp only [Complex.add_re, Complex.re_ofReal_mul, signal]

/-- C190: what AC analysis computes is a solution of the equations of the transient analysis. -/
theorem C190_phasors_solve {c : Ac.AcIn m} (h1 : c.mna = n.mna) (h2 : c.AC = n.D) (h3 : c.J = 0) (h4 : c.nn = n.nn) (h5 : c.gmin = n.gmin)
    {w : ℝ} {X : Fin m → ℂ} (hX : Ac.Y c w c.gmin *ᵥ X + c.Nac = 0) {t0 : ℝ} (hN : ∀ t, t0 ≤ t → n.N + n.Tt t = signal c.Nac w t) :
    Converge.Solves n t0 (signal X w) (signal (fun i => Complex.I * w * X i) w)
      (signal (fun i => Complex.I * w * (Complex.I * w * X i)) w)
      (signal (fun i => Complex.I * w * (Complex.I * w * (Complex.I * w * X i))) w) :=
  ⟨signal_deriv _ _, signal_deriv _ _, signal_deriv _ _, fun t ht => signal_eq h1 h2 h3 h4 h5 hX (hN t ht)⟩

theorem nrm_add (hB : Form B) (u v : Fin m → ℝ) : nrm B (u + v) ≤ nrm B u + nrm B v := by
  refine abs_le_of_sq_le_sq' ?_ (add_nonneg (nrm_nonneg _) (nrm_nonneg _)) |>.2
  have h := (abs_le.1 (cauchy hB u v)).2
  rw [nrm_sq hB, mulVec_add, add_dotProduct, dotProduct_add, dotProduct_add, dot_symm hB.sym v u, ← nrm_sq hB, ← nrm_sq hB]
  nlinarith

theorem nrm_smul (a : ℝ) (u : Fin m → ℝ) : nrm B (a • u) = |a| * nrm B u := by
  have : (a • u) ⬝ᵥ (B *ᵥ (a • u)) = a ^ 2 * (u ⬝ᵥ (B *ᵥ u)) := by
    rw [mulVec_smul, dotProduct_smul, smul_dotProduct, smul_eq_mul, smul_eq_mul]
    ring
  rw [nrm, this, Real.sqrt_mul (sq_nonneg _), Real.sqrt_sq_eq_abs, nrm]

/-- the energy norms of the in-phase and quadrature parts -/
noncomputable def amp (B : Matrix (Fin m) (Fin m) ℝ) (X : Fin m → ℂ) : ℝ :=
  nrm B (fun i => (X i).re) + nrm B (fun i => (X i).im)

theorem amp_nonneg (X : Fin m → ℂ) : 0 ≤ amp B X := add_nonneg (nrm_nonneg _) (nrm_nonneg _)

theorem signal_split (X : Fin m → ℂ) (w t : ℝ) :
    signal X w t = Real.cos (w * t) • (fun i => (X i).re) + (-Real.sin (w * t)) • (fun i => (X i).im) := by
  have e : Complex.I * (w : ℂ) * (t : ℂ) = ((w * t : ℝ) : ℂ) * Complex.I := by push_cast; ring
  funext i
  simp only [signal, e, Complex.mul_re, Complex.exp_ofReal_mul_I_re, Complex.exp_ofReal_mul_I_im, Pi.add_apply, Pi.smul_apply, smul_eq_mul]
  ring

theorem signal_nrm (hB : Form B) (X : Fin m → ℂ) (w t : ℝ) : nrm B (signal X w t) ≤ amp B X := by
  rw [signal_split]
  refine (nrm_add hB _ _).trans (add_le_add ?_ ?_) <;> rw [nrm_smul]
  · exact (mul_le_mul_of_nonneg_right (Real.abs_cos_le_one _) (nrm_nonneg _)).trans (one_mul _).le
  · rw [abs_neg]
    exact (mul_le_mul_of_nonneg_right (Real.abs_sin_le_one _) (nrm_nonneg _)).trans (one_mul _).le

theorem amp_turn (X : Fin m → ℂ) (w : ℝ) : amp B (fun i => Complex.I * w * X i) = |w| * amp B X := by
  have e1 : (fun i => (Complex.I * w * X i).re) = (-w) • fun i => (X i).im := by
    funext i; simp [Complex.mul_re]
  have e2 : (fun i => (Complex.I * w * X i).im) = w • fun i => (X i).re := by
    funext i; simp [Complex.mul_im]
  rw [amp, e1, e2, nrm_smul, nrm_smul, abs_neg, amp]
  ring

/-- C190, trapezoidal rule with steps of at most `H`: the transient stays as near to the sinusoid computed by the AC analysis as it
starts, up to a term of second order in `H`. -/
theorem C190_trap {c : Ac.AcIn m} (h1 : c.mna = n.mna) (h2 : c.AC = n.D) (h3 : c.J = 0) (h4 : c.nn = n.nn) (h5 : c.gmin = n.gmin)
    {w : ℝ} {X : Fin m → ℂ} (hX : Ac.Y c w c.gmin *ᵥ X + c.Nac = 0) {t0 : ℝ} (hN : ∀ t, t0 ≤ t → n.N + n.Tt t = signal c.Nac w t)
    {cf : Cfg ℝ} (hm : cf.meth = .trap) (hlen : 0 < cf.len) (hd : Direct cf.o n) (hp : Lossy S n)
    {H step : ℝ} (hs0 : 0 < step) (hs1 : step ≤ H) (x0 : Fin m → ℝ) (l : List (Ctl ℝ)) (hl : ∀ a ∈ l, 0 < a.step ∧ a.step ≤ H) :
    ∀ e ∈ (run cf n x0 l (start cf t0 step x0)).st.points,
      nrm (S * n.D) (e.x - signal X w e.t) ≤ nrm (S * n.D) (x0 - signal X w t0) +
        amp (S * n.D) X * (w ^ 2 / 2 + |w| ^ 3 / 12 * (e.t - t0)) * H ^ 2 := by
  intro e he
  have hx := C190_phasors_solve h1 h2 h3 h4 h5 hX hN
  have b2 : ∀ t, t0 ≤ t → nrm (S * n.D) (signal (fun i => Complex.I * w * (Complex.I * w * X i)) w t) ≤ w ^ 2 * amp (S * n.D) X := by
    intro t _
    refine (signal_nrm hp.form _ _ _).trans (le_of_eq ?_)
    rw [amp_turn, amp_turn, ← sq_abs]
    ring
  have b3 : ∀ t, t0 ≤ t → nrm (S * n.D) (signal (fun i => Complex.I * w * (Complex.I * w * (Complex.I * w * X i))) w t) ≤
      |w| ^ 3 * amp (S * n.D) X := by
    intro t _
    refine (signal_nrm hp.form _ _ _).trans (le_of_eq ?_)
    rw [amp_turn, amp_turn, amp_turn]
    ring
  have := C183_trap hm hlen hd hp hx b2 b3 hs0 hs1 x0 l hl e he
  linarith

/-! ### Constant steps: the trapezoidal rule is AC analysis at another frequency -/

theorem warp {w h : ℝ} (hh : h ≠ 0) (hc : Real.cos (w * h / 2) ≠ 0) (X : Fin m → ℂ) (t : ℝ) :
    signal (fun i => Complex.I * (2 / h * Real.tan (w * h / 2) : ℝ) * X i) w (t + h) +
      signal (fun i => Complex.I * (2 / h * Real.tan (w * h / 2) : ℝ) * X i) w t = (2 / h) • (signal X w (t + h) - signal X w t) := by
  have key : Complex.I * (2 / h * Real.tan (w * h / 2) : ℝ) * (Complex.exp (Complex.I * w * h) + 1) =
      (2 / h : ℝ) * (Complex.exp (Complex.I * w * h) - 1) := by
    have e : Complex.exp (Complex.I * w * h) = Complex.exp (((w * h / 2 : ℝ) : ℂ) * Complex.I) ^ 2 := by
      rw [← Complex.exp_nat_mul]
      congr 1
      push_cast
      ring
    have e2 : Complex.exp (((w * h / 2 : ℝ) : ℂ) * Complex.I) = (Real.cos (w * h / 2) : ℂ) + Real.sin (w * h / 2) * Complex.I := by
      rw [Complex.exp_mul_I, Complex.ofReal_cos, Complex.ofReal_sin]
    have hsc : Real.sin (w * h / 2) ^ 2 + Real.cos (w * h / 2) ^ 2 = 1 := Real.sin_sq_add_cos_sq (w * h / 2)
    rw [e, e2, Real.tan_eq_sin_div_cos]
    generalize Real.cos (w * h / 2) = C at *
    generalize Real.sin (w * h / 2) = T at *
    have hc' : (C : ℂ) ≠ 0 := Complex.ofReal_ne_zero.2 hc
    have hh' : (h : ℂ) ≠ 0 := Complex.ofReal_ne_zero.2 hh
    have hsc' : (T : ℂ) ^ 2 + (C : ℂ) ^ 2 = 1 := by exact_mod_cast hsc
    have hI : Complex.I ^ 2 = -1 := Complex.I_sq
    have a : ((C : ℂ) + T * Complex.I) ^ 2 + 1 = 2 * C * (C + T * Complex.I) := by linear_combination (T : ℂ) ^ 2 * hI - hsc'
    have b : ((C : ℂ) + T * Complex.I) ^ 2 - 1 = 2 * T * Complex.I * (C + T * Complex.I) := by
      linear_combination -(T : ℂ) ^ 2 * hI + hsc'
    rw [a, b]
    push_cast
    field_simp
  funext i
  have e3 : Complex.exp (Complex.I * w * ((t + h : ℝ) : ℂ)) = Complex.exp (Complex.I * w * t) * Complex.exp (Complex.I * w * h) := by
    rw [← Complex.exp_add]
    congr 1
    push_cast
    ring
  simp only [signal, Pi.add_apply, Pi.smul_apply, Pi.sub_apply, smul_eq_mul, e3]
  rw [← Complex.add_re, ← Complex.sub_re, ← Complex.re_ofReal_mul]
  congr 1
  linear_combination (X i * Complex.exp (Complex.I * w * t)) * key

theorem diff_holds {t : ℝ} {y d x d' : Fin m → ℝ}
    (h : n.mna *ᵥ y + gminMat n.nn n.gmin *ᵥ y + n.D *ᵥ d + n.N + n.Tt t = 0)
    (h' : n.mna *ᵥ x + gminMat n.nn n.gmin *ᵥ x + n.D *ᵥ d' + n.N + n.Tt t = 0) (u : Fin m → ℝ) :
    u ⬝ᵥ ((S * (n.mna + gminMat n.nn n.gmin)) *ᵥ (y - x)) + u ⬝ᵥ ((S * n.D) *ᵥ (d - d')) = 0 := by
  have h2 : (n.mna + gminMat n.nn n.gmin) *ᵥ (y - x) + n.D *ᵥ (d - d') = 0 := by
    rw [mulVec_sub, mulVec_sub, add_mulVec, add_mulVec]
    have e : n.mna *ᵥ y + gminMat n.nn n.gmin *ᵥ y - (n.mna *ᵥ x + gminMat n.nn n.gmin *ᵥ x) + (n.D *ᵥ d - n.D *ᵥ d') =
      (n.mna *ᵥ y + gminMat n.nn n.gmin *ᵥ y + n.D *ᵥ d + n.N + n.Tt t) -
        (n.mna *ᵥ x + gminMat n.nn n.gmin *ᵥ x + n.D *ᵥ d' + n.N + n.Tt t) := by abel
    rw [e, h, h', sub_zero]
  rw [← dotProduct_add, ← mulVec_mulVec, ← mulVec_mulVec, ← mulVec_add, h2, mulVec_zero, dotProduct_zero]

/-- C190, trapezoidal rule with constant steps `h`: after the first point (computed with implicit Euler) the results approach, without
any error that grows, the sinusoid with the phasors of the AC analysis at the frequency `2/h·tan(ωh/2)`. -/
theorem C190_trap_constant_step {c : Ac.AcIn m} (h1 : c.mna = n.mna) (h2 : c.AC = n.D) (h3 : c.J = 0) (h4 : c.nn = n.nn)
    (h5 : c.gmin = n.gmin) {w h : ℝ} (hh : 0 < h) (hc : Real.cos (w * h / 2) ≠ 0)
    {X : Fin m → ℂ} (hX : Ac.Y c (2 / h * Real.tan (w * h / 2)) c.gmin *ᵥ X + c.Nac = 0) {t0 : ℝ}
    (hN : ∀ t, t0 ≤ t → n.N + n.Tt t = signal c.Nac w t)
    {cf : Cfg ℝ} (hm : cf.meth = .trap) (hlen : 0 < cf.len) (hd : Direct cf.o n) (hp : Lossy S n)
    (x0 : Fin m → ℝ) (l : List (Ctl ℝ)) (hl : ∀ a ∈ l, a.step = h) :
    ∀ e ∈ (run cf n x0 l (start cf t0 h x0)).st.points,
      nrm (S * n.D) (e.x - signal X w e.t) ≤ nrm (S * n.D) (x0 - signal X w t0) + |Real.tan (w * h / 2)| * (2 * amp (S * n.D) X) := by
  set v := 2 / h * Real.tan (w * h / 2) with hv
  have eqs : ∀ t, t0 ≤ t → _ := fun t ht => signal_eq h1 h2 h3 h4 h5 hX (hN t ht)
  set x := signal X w with hx
  set d := signal (fun i => Complex.I * v * X i) w with hdd
  have key := run_ok (R := fun s => s = h) (tstart := t0) (x0 := x0)
    (bd := fun e => nrm (S * n.D) (e.x - x e.t) ≤ nrm (S * n.D) (x0 - x t0) + |Real.tan (w * h / 2)| * (2 * amp (S * n.D) X))
    (.inr hm) hlen (n := n) (P := Holds n) (Q := fun _ => True)
    (fun f t xs y h h' _ => direct_holds hd hp.linear hp.locked f t xs y h h') ?_ ?_ l
    (fun a ha => ⟨by rw [hl a ha]; exact hh, hl a ha⟩)
    (ok_start (c := cf) (tstart := t0) (x0 := x0) hh rfl (by
      have := mul_nonneg (abs_nonneg (Real.tan (w * h / 2))) (mul_nonneg two_pos.le (amp_nonneg (B := S * n.D) X))
      simp only
      linarith)) fun _ _ => trivial
  · exact fun e he => key.bound e (by simp [history, he])
  · intro e s y he hs hsh ht ⟨d1, hd1, hd2⟩ hb
    cases hd1
    subst hsh
    have he : e = ⟨t0, x0, none⟩ := by
      rcases he with he | he
      · rw [hm] at he; cases he
      · exact he
    subst he
    simp only at hd2 ⊢
    have hw := warp hs.ne' hc X t0
    rw [← hv] at hw
    have h0 := diff_holds (S := S) hd2 (eqs (t0 + s) (by linarith)) (y - x (t0 + s))
    have hst := hp.static (y - x (t0 + s))
    refine (euler_error (e0 := x0 - x t0) (r := (s / 2) • (d (t0 + s) - d t0)) hp.form ?_).trans (add_le_add_right ?_ _)
    · have e3 : y - x (t0 + s) - (x0 - x t0) - (s / 2) • (d (t0 + s) - d t0) = s • ((1 / s) • (y - x0) - d (t0 + s)) := by
        have : x (t0 + s) - x t0 = (s / 2) • (d (t0 + s) + d t0) := by
          rw [hw, smul_smul, show s / 2 * (2 / s) = 1 by field_simp, one_smul]
        funext i
        have := congrFun this i
        simp only [Pi.sub_apply, Pi.smul_apply, Pi.add_apply, smul_eq_mul] at this ⊢
        field_simp
        linarith
      rw [e3, mulVec_smul, dotProduct_smul, smul_eq_mul]
      have : (y - x (t0 + s)) ⬝ᵥ ((S * n.D) *ᵥ ((1 / s) • (y - x0) - d (t0 + s))) ≤ 0 := by linarith
      nlinarith
    · rw [nrm_smul, abs_of_pos (by positivity)]
      have b : ∀ t, nrm (S * n.D) (d t) ≤ 2 / s * |Real.tan (w * s / 2)| * amp (S * n.D) X := by
        intro t
        refine (signal_nrm hp.form _ _ _).trans (le_of_eq ?_)
        rw [amp_turn, hv, abs_mul, abs_of_pos (show 0 < 2 / s by positivity)]
      have : nrm (S * n.D) (d (t0 + s) - d t0) ≤ 2 * (2 / s * |Real.tan (w * s / 2)| * amp (S * n.D) X) := by
        have := nrm_add hp.form (d (t0 + s)) ((-1 : ℝ) • d t0)
        rw [nrm_smul, abs_neg, abs_one, one_mul, neg_one_smul, ← sub_eq_add_neg] at this
        linarith [b (t0 + s), b t0]
      refine (mul_le_mul_of_nonneg_left this (by positivity)).trans (le_of_eq ?_)
      field_simp
  · intro _ e s y de hde hs hsh ht ⟨d0, he1, he2⟩ ⟨d1, hd1, hd2⟩ hb
    cases hd1
    rw [hde] at he1
    cases he1
    subst hsh
    simp only at hd2 hb ⊢
    refine le_trans ?_ hb
    have hw := warp hs.ne' hc X e.t
    rw [← hv] at hw
    set u := y - x (e.t + s) + (e.x - x e.t) with hu
    have q0 := diff_holds (S := S) he2 (eqs e.t ht) u
    have q1 := diff_holds (S := S) hd2 (eqs (e.t + s) (by linarith)) u
    have hst := hp.static u
    have := trap_error (e0 := e.x - x e.t) (e1 := y - x (e.t + s)) (r := 0) hp.form ?_
    · have z : nrm (S * n.D) 0 = 0 := by simp [nrm]
      rw [z, add_zero] at this
      exact this
    · have e3 : y - x (e.t + s) - (e.x - x e.t) - 0 = (s / 2) • (((2 / s) • (y - e.x) - de - d (e.t + s)) + (de - d e.t)) := by
        funext i
        have := congrFun hw i
        simp only [Pi.sub_apply, Pi.add_apply, Pi.zero_apply, Pi.smul_apply, smul_eq_mul] at this ⊢
        have h6 : d (e.t + s) i = 2 / s * (x (e.t + s) i - x e.t i) - d e.t i := by linarith
        rw [h6]
        field_simp
        ring
      rw [e3, mulVec_smul, dotProduct_smul, smul_eq_mul, mulVec_add, dotProduct_add]
      rw [hu, mulVec_add, dotProduct_add, ← hu] at hst
      have : u ⬝ᵥ ((S * n.D) *ᵥ ((2 / s) • (y - e.x) - de - d (e.t + s))) + u ⬝ᵥ ((S * n.D) *ᵥ (de - d e.t)) ≤ 0 := by linarith
      have : 0 < s / 2 := by positivity
      nlinarith

/-! ### Circuits -/

section circuits
open Verif.Circuit Verif.Mna Verif.Dyn Verif.Rlc Verif.Conserve Verif.Stable

/-- what the results of an AC analysis solve -/
theorem results_solve {c : Ac.AcIn m} {o : Ac.AOpts} (ho : Ac.Default o) {t : Ac.SweepType} {start stop : ℝ} {points : Nat}
    {x0 : Fin m → ℂ} {pts : List (ℝ × (Fin m → ℂ))} (hr : Ac.acAnalysis o c t start stop points x0 = .ok (some pts))
    {p : ℝ × (Fin m → ℂ)} (hpt : p ∈ pts) : Ac.Solves c (2 * Real.pi * p.1) p.2 := by
  unfold Ac.acAnalysis at hr
  cases hw : Ac.omegas t start stop points (points + 2) with
  | error e => rw [hw] at hr; cases hr
  | ok ws =>
    rw [hw] at hr
    rcases Ac.sweep_spec ho c ws x0 [] with ⟨-, e⟩ | ⟨-, q, e, f⟩
    · simp [e] at hr
    · simp only [e, List.nil_append] at hr
      cases hr
      have : ∀ {ws : List ℝ} {q : List (ℝ × (Fin m → ℂ))},
          List.Forall₂ (fun w p => p.1 = w / Real.pi / 2 ∧ Ac.Solves c w p.2) ws q → p ∈ q → Ac.Solves c (2 * Real.pi * p.1) p.2 := by
        intro ws q hf
        induction hf with
        | nil => intro h; cases h
        | cons hh _ ih =>
          intro hpm
          rcases List.mem_cons.1 hpm with rfl | h'
          · rw [hh.1]
            have hpi := Real.pi_pos.ne'
            have : ∀ w : ℝ, 2 * Real.pi * (w / Real.pi / 2) = w := fun w => by field_simp
            rw [this]
            exact hh.2
          · exact ih h'
      exact this f hpt

/-- the value of an independent source at any time `t ≥ t0` is that of the sinusoid with its phasor -/
def Sine (ph : String → Option ℂ) (w t0 : ℝ) : Elem ℝ → Prop
  | .V id _ _ src | .I id _ _ src => ∀ t, t0 ≤ t → srcVal (some t) src = ((ph id).getD 0 * Complex.exp (Complex.I * w * t)).re
  | _ => True

theorem inj_re (a b : Nat) (x E : ℂ) (r : Nat) : (inj a b x r * E).re = inj a b (x * E).re r := by
  simp only [inj]
  split_ifs <;> simp

theorem sine_nodes {circ : List (Elem ℝ)} {nv : Nat} {ph : String → Option ℂ} {w t0 t : ℝ} (ht : t0 ≤ t) (l : List (Elem ℝ)) (k r : Nat)
    (hp : ∀ e ∈ l, Converge.Linear e) (hs : ∀ e ∈ l, Sine ph w t0 e) :
    kcl circ nv (fun _ => 0) (srcVal (some t)) l k r = (acNode (l.map (lift ph)) r * Complex.exp (Complex.I * w * t)).re := by
  induction l generalizing k with
  | nil => simp [kcl, acNode]
  | cons e q ih =>
    have h1 := hp e (by simp)
    have h2 := hs e (by simp)
    have ha : acNode ((e :: q).map (lift ph)) r = acNode [lift ph e] r + acNode (q.map (lift ph)) r := by
      simp [acNode]
    rw [kcl, ih _ (fun e' h' => hp e' (by simp [h'])) (fun e' h' => hs e' (by simp [h'])), ha, add_mul, Complex.add_re]
    congr 1
    cases e <;> simp only [Converge.Linear] at h1 <;> simp only [current, term, lift, acNode, List.map_cons, List.map_nil, List.sum_cons,
      List.sum_nil, add_zero, zero_mul, Complex.zero_re, sub_self, zero_div, Laws.inj_zero]
    simp only [Sine] at h2
    rw [h2 t ht, inj_re]

theorem sine_sources {nv m : Nat} {circ : List (Elem ℝ)} {s : Mna.Sys ℝ} (hnv : 0 < nv)
    (he : ∀ e ∈ circ, NodesLt nv e) (hp : ∀ e ∈ circ, Converge.Linear e) (h : generate circ nv = .ok s) (hm : s.size = m + 1)
    {ph : String → Option ℂ} {w t0 t : ℝ} (ht : t0 ≤ t) (hs : ∀ e ∈ circ, Sine ph w t0 e) {T : Vec ℝ} (hT : genTt circ nv (some t) = .ok T) :
    reduceV m s.N + reduceV m T = signal (reduceV m (genNac (circ.map (lift ph)) nv).2) w t := by
  have hz := (generate_row (fun _ => 0) he (linear_static hp).1 h).1
  obtain ⟨p1, p2⟩ := linear_static hp
  have hl : ∀ e ∈ circ.map (lift ph), NodesLt nv e := by
    intro e hm
    obtain ⟨e', h1, rfl⟩ := List.mem_map.1 hm
    exact lift_nodes (he e' h1)
  obtain ⟨-, a1, a2⟩ := C10_ac_excitation (circ.map (lift ph)) nv hl
  have z : ∀ r, Mna.mulVec s.size s.M (fun _ => (0 : ℝ)) r = 0 := fun r => by simp [Mna.mulVec]
  funext i
  simp only [Pi.add_apply, reduceV, signal]
  by_cases hi : i.val + 1 < nv
  · have := C70_node_equations he p1 h hT (fun _ => 0) (i.val + 1) (by omega) hi
    rw [z, zero_add] at this
    rw [this, a1 _ hi]
    exact sine_nodes ht circ 0 _ hp hs
  · obtain ⟨k, hk⟩ : ∃ k, i.val + 1 = nv + k := ⟨i.val + 1 - nv, by omega⟩
    have hkl : k < (vdes circ).length := by have := i.isLt; omega
    have hke := List.getElem?_eq_getElem hkl
    have := C70_branch_equations hnv he p1 p2 h hT (fun _ => 0) k _ hke
    rw [z, zero_add] at this
    have hv : vdes (circ.map (lift ph)) = (vdes circ).map (lift ph) := by
      unfold vdes
      rw [List.filter_map]
      congr 1
      apply List.filter_congr
      intro x _
      exact lift_vde ph x
    have h2 := a2 k (lift ph (vdes circ)[k]) (by rw [hv, List.getElem?_map, hke]; rfl)
    rw [hk, this, h2]
    have hin : (vdes circ)[k] ∈ circ := (List.mem_filter.1 (List.getElem_mem hkl)).1
    have q1 := hp _ hin
    have q2 := hs _ hin
    generalize (vdes circ)[k] = e at *
    cases e <;> simp only [Converge.Linear] at q1 <;> simp only [law, lift, acBranch, sub_self, zero_sub, zero_mul, Complex.zero_re]
    simp only [Sine] at q2
    rw [q2 t ht, neg_mul, Complex.neg_re]

/-- C190: circuits of resistors, capacitors, inductors (coupled or not, with nonnegative energy) and independent sources whose time
functions are sinusoids of the frequency of a line of the results of an AC analysis, with the phasors given for the AC analysis: the
transient analysis (trapezoidal rule, steps of at most `H`) stays as near to the sinusoids with the computed phasors as it starts, up to
an error of second order in `H`; nearness is the root of the energy of the difference. -/
theorem C190_transient_follows_ac {cf : Cfg ℝ} (hme : cf.meth = .trap) (hlen : 0 < cf.len) {nv m : Nat} {circ : List (Elem ℝ)}
    {s : Mna.Sys ℝ} {D : Mat ℝ} {cmin gmin : ℝ} (hnv : 0 < nv)
    (he : ∀ e ∈ circ, NodesLt nv e) (hp : ∀ e ∈ circ, Converge.Linear e) (hpos : ∀ e ∈ circ, Positive e)
    (h : generate circ nv = .ok s) (hm : s.size = m + 1) (hd : generateD circ nv (m + 1) cmin = .ok D)
    (hc : 0 ≤ cmin) (hg : 0 ≤ gmin) (hsym : ∀ x y, magForm circ nv x y = magForm circ nv y x)
    (hmag : ∀ x, 0 ≤ magForm circ nv x x) {T : ℝ → Vec ℝ} {t0 : ℝ} (hT : ∀ t, t0 ≤ t → genTt circ nv (some t) = .ok (T t))
    (hdir : Direct cf.o (netT m s D nv gmin fun t => reduceV m (T t)))
    {DA : Mat ℝ} (hda : generateAC circ nv s.size cmin = .ok DA) {ph : String → Option ℂ} {o : Ac.AOpts} (ho : Ac.Default o)
    {ty : Ac.SweepType} {fstart fstop : ℝ} {points : Nat} {z0 : Fin m → ℂ} {pts : List (ℝ × (Fin m → ℂ))}
    (hr : Ac.acAnalysis o ⟨reduce m s.M, reduce m DA, 0, reduceV m (genNac (circ.map (lift ph)) nv).2, nv - 1, gmin⟩
      ty fstart fstop points z0 = .ok (some pts)) {p : ℝ × (Fin m → ℂ)} (hpt : p ∈ pts)
    (hreg : (Ac.Y (⟨reduce m s.M, reduce m DA, 0, reduceV m (genNac (circ.map (lift ph)) nv).2, nv - 1, gmin⟩ : Ac.AcIn m)
      (2 * Real.pi * p.1) gmin).det ≠ 0)
    (hs : ∀ e ∈ circ, Sine ph (2 * Real.pi * p.1) t0 e)
    {H step : ℝ} (h0 : 0 < step) (h1 : step ≤ H) (x0 : Fin m → ℝ) (l : List (Ctl ℝ)) (hl : ∀ a ∈ l, 0 < a.step ∧ a.step ≤ H) :
    let w := 2 * Real.pi * p.1
    let x : ℝ → Fin m → ℝ := fun t i => (p.2 i * Complex.exp (Complex.I * w * t)).re
    ∀ e ∈ (run cf (netT m s D nv gmin fun t => reduceV m (T t)) x0 l (start cf t0 step x0)).st.points,
      √(stored circ nv cmin (e.x - x e.t)) ≤ √(stored circ nv cmin (x0 - x t0)) +
        (√(stored circ nv cmin fun i => (p.2 i).re) + √(stored circ nv cmin fun i => (p.2 i).im)) *
          (w ^ 2 / 2 + |w| ^ 3 / 12 * (e.t - t0)) * H ^ 2 := by
  have hz := (generate_row (fun _ => 0) he (linear_static hp).1 h).1
  have hS : ∀ v : Fin m → ℝ, nrm (signs m nv * (netT m s D nv gmin fun t => reduceV m (T t)).D) v = √(stored circ nv cmin v) := fun v =>
    congrArg Real.sqrt (dynamic_form' hnv he hp (by omega) hd v v)
  rw [C08_ac_same, hm, hd] at hda
  cases hda
  have hsol : Ac.Y (⟨reduce m s.M, reduce m D, 0, reduceV m (genNac (circ.map (lift ph)) nv).2, nv - 1, gmin⟩ : Ac.AcIn m)
      (2 * Real.pi * p.1) gmin *ᵥ p.2 + reduceV m (genNac (circ.map (lift ph)) nv).2 = 0 := by
    rcases results_solve ho hr hpt with ⟨-, e⟩ | ⟨e, -⟩
    · exact e
    · exact absurd e hreg
  intro w x e hme'
  have := C190_trap (c := ⟨reduce m s.M, reduce m D, 0, reduceV m (genNac (circ.map (lift ph)) nv).2, nv - 1, gmin⟩)
    (n := netT m s D nv gmin fun t => reduceV m (T t)) rfl rfl rfl rfl rfl hsol
    (fun t ht => sine_sources hnv he hp h hm ht hs (hT t ht)) hme hlen hdir
    (lossy hnv he hp hpos h hm hd hc hg hsym hmag _) h0 h1 x0 l hl e hme'
  rw [amp, hS, hS, hS, hS] at this
  exact this

/-- C190, constant steps `h`: with the phasors that the AC analysis computes at the frequency with `ω = 2/h·tan(w·h/2)`, `w` the angular
frequency of the sources, there is no error that grows. -/
theorem C190_constant_steps {cf : Cfg ℝ} (hme : cf.meth = .trap) (hlen : 0 < cf.len) {nv m : Nat} {circ : List (Elem ℝ)}
    {s : Mna.Sys ℝ} {D : Mat ℝ} {cmin gmin : ℝ} (hnv : 0 < nv)
    (he : ∀ e ∈ circ, NodesLt nv e) (hp : ∀ e ∈ circ, Converge.Linear e) (hpos : ∀ e ∈ circ, Positive e)
    (h : generate circ nv = .ok s) (hm : s.size = m + 1) (hd : generateD circ nv (m + 1) cmin = .ok D)
    (hc : 0 ≤ cmin) (hg : 0 ≤ gmin) (hsym : ∀ x y, magForm circ nv x y = magForm circ nv y x)
    (hmag : ∀ x, 0 ≤ magForm circ nv x x) {T : ℝ → Vec ℝ} {t0 : ℝ} (hT : ∀ t, t0 ≤ t → genTt circ nv (some t) = .ok (T t))
    (hdir : Direct cf.o (netT m s D nv gmin fun t => reduceV m (T t)))
    {DA : Mat ℝ} (hda : generateAC circ nv s.size cmin = .ok DA) {ph : String → Option ℂ} {o : Ac.AOpts} (ho : Ac.Default o)
    {ty : Ac.SweepType} {fstart fstop : ℝ} {points : Nat} {z0 : Fin m → ℂ} {pts : List (ℝ × (Fin m → ℂ))}
    (hr : Ac.acAnalysis o ⟨reduce m s.M, reduce m DA, 0, reduceV m (genNac (circ.map (lift ph)) nv).2, nv - 1, gmin⟩
      ty fstart fstop points z0 = .ok (some pts)) {p : ℝ × (Fin m → ℂ)} (hpt : p ∈ pts)
    (hreg : (Ac.Y (⟨reduce m s.M, reduce m DA, 0, reduceV m (genNac (circ.map (lift ph)) nv).2, nv - 1, gmin⟩ : Ac.AcIn m)
      (2 * Real.pi * p.1) gmin).det ≠ 0)
    {w dt : ℝ} (hdt : 0 < dt) (hcos : Real.cos (w * dt / 2) ≠ 0) (hw : 2 * Real.pi * p.1 = 2 / dt * Real.tan (w * dt / 2))
    (hs : ∀ e ∈ circ, Sine ph w t0 e) (x0 : Fin m → ℝ) (l : List (Ctl ℝ)) (hl : ∀ a ∈ l, a.step = dt) :
    let x : ℝ → Fin m → ℝ := fun t i => (p.2 i * Complex.exp (Complex.I * w * t)).re
    ∀ e ∈ (run cf (netT m s D nv gmin fun t => reduceV m (T t)) x0 l (start cf t0 dt x0)).st.points,
      √(stored circ nv cmin (e.x - x e.t)) ≤ √(stored circ nv cmin (x0 - x t0)) +
        |Real.tan (w * dt / 2)| * (2 * (√(stored circ nv cmin fun i => (p.2 i).re) + √(stored circ nv cmin fun i => (p.2 i).im))) := by
  have hz := (generate_row (fun _ => 0) he (linear_static hp).1 h).1
  have hS : ∀ v : Fin m → ℝ, nrm (signs m nv * (netT m s D nv gmin fun t => reduceV m (T t)).D) v = √(stored circ nv cmin v) := fun v =>
    congrArg Real.sqrt (dynamic_form' hnv he hp (by omega) hd v v)
  rw [C08_ac_same, hm, hd] at hda
  cases hda
  have hsol : Ac.Y (⟨reduce m s.M, reduce m D, 0, reduceV m (genNac (circ.map (lift ph)) nv).2, nv - 1, gmin⟩ : Ac.AcIn m)
      (2 / dt * Real.tan (w * dt / 2)) gmin *ᵥ p.2 + reduceV m (genNac (circ.map (lift ph)) nv).2 = 0 := by
    rw [← hw]
    rcases results_solve ho hr hpt with ⟨-, e⟩ | ⟨e, -⟩
    · exact e
    · exact absurd e hreg
  intro x e hme'
  have := C190_trap_constant_step (c := ⟨reduce m s.M, reduce m D, 0, reduceV m (genNac (circ.map (lift ph)) nv).2, nv - 1, gmin⟩)
    (n := netT m s D nv gmin fun t => reduceV m (T t)) rfl rfl rfl rfl rfl hdt hcos hsol
    (fun t ht => sine_sources hnv he hp h hm ht hs (hT t ht)) hme hlen hdir
    (lossy hnv he hp hpos h hm hd hc hg hsym hmag _) x0 l hl e hme'
  rw [amp, hS, hS, hS, hS] at this
  exact this

end circuits

/-! ### Examples -/

/-- a resistor of 1 ohm and a capacitor of 1 F, fed by a current of cos t -/
noncomputable def driven : Net ℝ 1 := { Converge.rc with N := 0, Tt := fun t => ![-Real.cos t] }

noncomputable def drivenAc : Ac.AcIn 1 := ⟨!![1], !![1], 0, ![-1], 1, 0⟩

/-- the phasor 1/(1 + j) solves the AC equations, the sources are the ones of the transient -/
theorem driven_ac (v : ℝ) : Ac.Y drivenAc v drivenAc.gmin *ᵥ ![1 / (1 + Complex.I * v)] + drivenAc.Nac = 0 := by
  funext i
  fin_cases i
  have : (1 + Complex.I * (v : ℂ)) ≠ 0 := by
    intro h
    have := congrArg Complex.re h
    simp at this
  simp [Ac.Y, drivenAc, vecHead]
  rw [inv_mul_cancel₀ this]
  ring

theorem driven_src (t : ℝ) : driven.N + driven.Tt t = signal drivenAc.Nac 1 t := by
  funext i
  fin_cases i
  simp [driven, signal, drivenAc, mul_comm Complex.I (t : ℂ), Complex.exp_ofReal_mul_I_re]

example {cf : Cfg ℝ} (hm : cf.meth = .trap) (hlen : 0 < cf.len) (ho : Plain cf.o) (hs : cf.o.meth.std = true) {h : ℝ} (hh : 0 < h)
    (hc : Real.cos (1 * h / 2) ≠ 0) (x0 : Fin 1 → ℝ) (l : List (Ctl ℝ)) (hl : ∀ a ∈ l, a.step = h) :
    ∀ e ∈ (run cf driven x0 l (start cf 0 h x0)).st.points,
      nrm (1 * Converge.rc.D) (e.x - signal ![1 / (1 + Complex.I * (2 / h * Real.tan (1 * h / 2) : ℝ))] 1 e.t) ≤
        nrm (1 * Converge.rc.D) (x0 - signal ![1 / (1 + Complex.I * (2 / h * Real.tan (1 * h / 2) : ℝ))] 1 0) +
          |Real.tan (1 * h / 2)| * (2 * amp (1 * Converge.rc.D) ![1 / (1 + Complex.I * (2 / h * Real.tan (1 * h / 2) : ℝ))]) :=
  C190_trap_constant_step (n := driven) (c := drivenAc) rfl rfl rfl rfl rfl hh hc (driven_ac _) (fun t _ => driven_src t) hm hlen
    (rc_direct cf.o ho hs) ⟨rfl, rfl, rc_lossy.form, rc_lossy.static⟩ x0 l hl

/-- a filter fed by a voltage source of cos t -/
example : let f : List (Circuit.Elem ℝ) := [.V "V1" 1 0 { dc := none, timeDep := true, fn := some fun t => Real.cos (t.getD 0) },
      .R "R1" 1 2 1, .C "C1" 2 0 1 none, .L "L1" 2 0 3 none []]
    (∀ e ∈ f, Mna.NodesLt 3 e) ∧ (∀ e ∈ f, Converge.Linear e) ∧ (∀ e ∈ f, Rlc.Positive e) ∧
      (∀ e ∈ f, Sine (fun _ => some 1) 1 0 e) := by
  refine ⟨?_, ?_, ?_, ?_⟩ <;> simp [Mna.NodesLt, Converge.Linear, Rlc.Positive, Sine]
  intro t _
  simp [Mna.srcVal, Circuit.Src.eval, mul_comm Complex.I (t : ℂ), Complex.exp_ofReal_mul_I_re]

end Verif.Phasor
