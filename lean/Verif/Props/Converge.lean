import Verif.Props.Conserve
import Mathlib.Analysis.Calculus.MeanValue
import Mathlib.Analysis.Calculus.Deriv.Pow
import Mathlib.Analysis.SpecialFunctions.ExpDeriv

/-!
C183: the points computed by implicit Euler and the trapezoidal rule converge to the solution of the circuit.
-/

namespace Verif.Converge
open Verif.Op Verif.Homotopy Verif.Tran Verif.Steady Matrix

/-! ### Scalar estimates -/

theorem euler_scalar {f f' f'' : ℝ → ℝ} {C a b : ℝ} (hab : a ≤ b) (h1 : ∀ s, HasDerivAt f (f' s) s)
    (h2 : ∀ s, HasDerivAt f' (f'' s) s) (hC : ∀ s ∈ Set.Ico a b, |f'' s| ≤ C) :
    |f b - f a - (b - a) * f' b| ≤ C / 2 * (b - a) ^ 2 := by
  have hd : ∀ s, HasDerivAt (fun s => f s - f a - (s - a) * f' s) (-((s - a) * f'' s)) s := by
    intro s
    refine (((h1 s).sub_const (f a)).sub (((hasDerivAt_id' s).sub_const a).mul (h2 s))).congr_deriv ?_
    ring
  have hB : ∀ s, HasDerivAt (fun s => C / 2 * (s - a) ^ 2) (C * (s - a)) s := by
    intro s
    refine ((((hasDerivAt_id' s).sub_const a).fun_pow 2).const_mul (C / 2)).congr_deriv ?_
    norm_num
    ring
  have := image_norm_le_of_norm_deriv_right_le_deriv_boundary (a := a) (b := b)
    (fun s _ => (hd s).continuousAt.continuousWithinAt) (fun s _ => (hd s).hasDerivWithinAt) (B := fun s => C / 2 * (s - a) ^ 2)
    (by simp) hB (fun s hs => ?_) (x := b) ⟨hab, le_rfl⟩
  · simpa [Real.norm_eq_abs] using this
  · rw [Real.norm_eq_abs, abs_neg, abs_mul, abs_of_nonneg (by linarith [hs.1] : 0 ≤ s - a), mul_comm]
    exact mul_le_mul_of_nonneg_right (hC s hs) (by linarith [hs.1])

theorem trap_scalar {f f' f'' f3 : ℝ → ℝ} {C a b : ℝ} (hab : a ≤ b) (h1 : ∀ s, HasDerivAt f (f' s) s)
    (h2 : ∀ s, HasDerivAt f' (f'' s) s) (h3 : ∀ s, HasDerivAt f'' (f3 s) s) (hC : ∀ s ∈ Set.Ico a b, |f3 s| ≤ C) :
    |f b - f a - (b - a) / 2 * (f' b + f' a)| ≤ C / 12 * (b - a) ^ 3 := by
  have hd : ∀ s, HasDerivAt (fun s => f s - f a - (s - a) / 2 * (f' s + f' a)) ((f' s - f' a - (s - a) * f'' s) / 2) s := by
    intro s
    refine (((h1 s).sub_const (f a)).sub ((((hasDerivAt_id' s).sub_const a).div_const 2).mul ((h2 s).add_const (f' a)))).congr_deriv ?_
    ring
  have hB : ∀ s, HasDerivAt (fun s => C / 12 * (s - a) ^ 3) (C / 4 * (s - a) ^ 2) s := by
    intro s
    refine ((((hasDerivAt_id' s).sub_const a).fun_pow 3).const_mul (C / 12)).congr_deriv ?_
    norm_num
    ring
  have := image_norm_le_of_norm_deriv_right_le_deriv_boundary (a := a) (b := b)
    (fun s _ => (hd s).continuousAt.continuousWithinAt) (fun s _ => (hd s).hasDerivWithinAt) (B := fun s => C / 12 * (s - a) ^ 3)
    (by simp) hB (fun s hs => ?_) (x := b) ⟨hab, le_rfl⟩
  · simpa [Real.norm_eq_abs] using this
  · have := euler_scalar hs.1 h2 h3 (fun u hu => hC u ⟨hu.1, hu.2.trans hs.2⟩)
    rw [Real.norm_eq_abs, abs_div, abs_two]
    linarith

/-! ### The energy norm -/

variable {m : Nat}

/-- root of twice the energy -/
noncomputable def nrm (B : Matrix (Fin m) (Fin m) ℝ) (v : Fin m → ℝ) : ℝ := √(v ⬝ᵥ (B *ᵥ v))

/-- symmetric, never negative -/
structure Form (B : Matrix (Fin m) (Fin m) ℝ) : Prop where
  sym : Bᵀ = B
  pos : ∀ v, 0 ≤ v ⬝ᵥ (B *ᵥ v)

variable {B : Matrix (Fin m) (Fin m) ℝ}

theorem nrm_nonneg (v : Fin m → ℝ) : 0 ≤ nrm B v := Real.sqrt_nonneg _

theorem nrm_sq (hB : Form B) (v : Fin m → ℝ) : nrm B v ^ 2 = v ⬝ᵥ (B *ᵥ v) := Real.sq_sqrt (hB.pos v)

theorem cauchy (hB : Form B) (u v : Fin m → ℝ) : |u ⬝ᵥ (B *ᵥ v)| ≤ nrm B u * nrm B v := by
  have h : ∀ t : ℝ, 0 ≤ (v ⬝ᵥ (B *ᵥ v)) * (t * t) + (2 * (u ⬝ᵥ (B *ᵥ v))) * t + u ⬝ᵥ (B *ᵥ u) := by
    intro t
    have := hB.pos (u + t • v)
    simp only [mulVec_add, mulVec_smul, dotProduct_add, add_dotProduct, dotProduct_smul, smul_dotProduct, smul_eq_mul,
      dot_symm hB.sym v u] at this
    linarith
  have h2 := discrim_le_zero h
  unfold discrim at h2
  refine abs_le_of_sq_le_sq ?_ (mul_nonneg (nrm_nonneg _) (nrm_nonneg _))
  rw [mul_pow, nrm_sq hB, nrm_sq hB]
  nlinarith

/-- implicit Euler does not enlarge errors -/
theorem euler_error (hB : Form B) {e0 e1 r : Fin m → ℝ} (h : e1 ⬝ᵥ (B *ᵥ (e1 - e0 - r)) ≤ 0) : nrm B e1 ≤ nrm B e0 + nrm B r := by
  rw [mulVec_sub, mulVec_sub, dotProduct_sub, dotProduct_sub, ← nrm_sq hB] at h
  have h0 := (abs_le.1 (cauchy hB e1 e0)).2
  have h1 := (abs_le.1 (cauchy hB e1 r)).2
  by_contra hn
  rw [not_le] at hn
  have : 0 < nrm B e1 := lt_of_le_of_lt (add_nonneg (nrm_nonneg _) (nrm_nonneg _)) hn
  nlinarith

/-- the trapezoidal rule does not enlarge errors -/
theorem trap_error (hB : Form B) {e0 e1 r : Fin m → ℝ} (h : (e1 + e0) ⬝ᵥ (B *ᵥ (e1 - e0 - r)) ≤ 0) :
    nrm B e1 ≤ nrm B e0 + nrm B r := by
  simp only [mulVec_sub, dotProduct_sub, add_dotProduct, dot_symm hB.sym e0 e1] at h
  rw [← nrm_sq hB, ← nrm_sq hB] at h
  have h0 := (abs_le.1 (cauchy hB e0 r)).2
  have h1 := (abs_le.1 (cauchy hB e1 r)).2
  by_contra hn
  rw [not_le] at hn
  have := nrm_nonneg (B := B) e0
  have := nrm_nonneg (B := B) r
  nlinarith

/-! ### Solutions -/

/-- a circuit whose static part takes up power and whose dynamic part stores energy; there may be sources -/
structure Lossy (S : Matrix (Fin m) (Fin m) ℝ) (n : Net ℝ m) : Prop where
  linear : n.nonlinear = false
  locked : n.locked = []
  form : Form (S * n.D)
  static : ∀ v, 0 ≤ v ⬝ᵥ ((S * (n.mna + gminMat n.nn n.gmin)) *ᵥ v)

/-- `x` solves the equations of the circuit from `t0` on; `x1`, `x2`, `x3` are its derivatives -/
structure Solves (n : Net ℝ m) (t0 : ℝ) (x x1 x2 x3 : ℝ → Fin m → ℝ) : Prop where
  d1 : ∀ t i, HasDerivAt (fun s => x s i) (x1 t i) t
  d2 : ∀ t i, HasDerivAt (fun s => x1 s i) (x2 t i) t
  d3 : ∀ t i, HasDerivAt (fun s => x2 s i) (x3 t i) t
  eq : ∀ t, t0 ≤ t → n.mna *ᵥ x t + gminMat n.nn n.gmin *ᵥ x t + n.D *ᵥ x1 t + n.N + n.Tt t = 0

theorem dot_deriv {x x1 : ℝ → Fin m → ℝ} (h : ∀ t i, HasDerivAt (fun s => x s i) (x1 t i) t) (u : Fin m → ℝ) (t : ℝ) :
    HasDerivAt (fun s => u ⬝ᵥ x s) (u ⬝ᵥ x1 t) t := by
  unfold dotProduct
  exact HasDerivAt.fun_sum fun i _ => (h t i).const_mul (u i)

theorem form_deriv {x x1 : ℝ → Fin m → ℝ} (h : ∀ t i, HasDerivAt (fun s => x s i) (x1 t i) t) (u : Fin m → ℝ) (t : ℝ) :
    HasDerivAt (fun s => u ⬝ᵥ (B *ᵥ x s)) (u ⬝ᵥ (B *ᵥ x1 t)) t := by
  simp only [dotProduct_mulVec]
  exact dot_deriv h _ t

theorem self_bound (hB : Form B) {v : Fin m → ℝ} {c : ℝ} (hc : 0 ≤ c) (h : |v ⬝ᵥ (B *ᵥ v)| ≤ nrm B v * c) : nrm B v ≤ c := by
  rw [← nrm_sq hB, abs_of_nonneg (sq_nonneg _)] at h
  by_contra hn
  rw [not_le] at hn
  nlinarith [nrm_nonneg (B := B) v]

variable {x x1 x2 x3 : ℝ → Fin m → ℝ} {t0 : ℝ} {n : Net ℝ m}

theorem euler_local (hB : Form B) (d1 : ∀ t i, HasDerivAt (fun s => x s i) (x1 t i) t)
    (d2 : ∀ t i, HasDerivAt (fun s => x1 s i) (x2 t i) t) {M a h : ℝ} (hh : 0 ≤ h) (hM : ∀ t, t0 ≤ t → nrm B (x2 t) ≤ M)
    (ha : t0 ≤ a) : nrm B (x (a + h) - x a - h • x1 (a + h)) ≤ M / 2 * h ^ 2 := by
  have hM0 : 0 ≤ M := (nrm_nonneg _).trans (hM a ha)
  refine self_bound hB (by positivity) ?_
  set u := x (a + h) - x a - h • x1 (a + h) with hu
  have := euler_scalar (a := a) (b := a + h) (C := nrm B u * M) (by linarith) (form_deriv (B := B) d1 u) (form_deriv d2 u)
    (fun s hs => (cauchy hB _ _).trans (mul_le_mul_of_nonneg_left (hM s (ha.trans hs.1)) (nrm_nonneg _)))
  have e : u ⬝ᵥ (B *ᵥ u) = u ⬝ᵥ (B *ᵥ x (a + h)) - u ⬝ᵥ (B *ᵥ x a) - (a + h - a) * u ⬝ᵥ (B *ᵥ x1 (a + h)) := by
    conv_lhs => rw [hu]
    rw [← hu, mulVec_sub, mulVec_sub, dotProduct_sub, dotProduct_sub, mulVec_smul, dotProduct_smul, smul_eq_mul]
    ring
  rw [e]
  refine this.trans (le_of_eq ?_)
  ring

theorem trap_local (hB : Form B) (hx : Solves n t0 x x1 x2 x3) {M a h : ℝ} (hh : 0 ≤ h) (hM : ∀ t, t0 ≤ t → nrm B (x3 t) ≤ M)
    (ha : t0 ≤ a) : nrm B (x (a + h) - x a - (h / 2) • (x1 (a + h) + x1 a)) ≤ M / 12 * h ^ 3 := by
  have hM0 : 0 ≤ M := (nrm_nonneg _).trans (hM a ha)
  refine self_bound hB (by positivity) ?_
  set u := x (a + h) - x a - (h / 2) • (x1 (a + h) + x1 a) with hu
  have := trap_scalar (a := a) (b := a + h) (C := nrm B u * M) (by linarith) (form_deriv (B := B) hx.d1 u) (form_deriv hx.d2 u)
    (form_deriv hx.d3 u) (fun s hs => (cauchy hB _ _).trans (mul_le_mul_of_nonneg_left (hM s (ha.trans hs.1)) (nrm_nonneg _)))
  have e : u ⬝ᵥ (B *ᵥ u) = u ⬝ᵥ (B *ᵥ x (a + h)) - u ⬝ᵥ (B *ᵥ x a) -
      (a + h - a) / 2 * (u ⬝ᵥ (B *ᵥ x1 (a + h)) + u ⬝ᵥ (B *ᵥ x1 a)) := by
    conv_lhs => rw [hu]
    rw [← hu, mulVec_sub, mulVec_sub, dotProduct_sub, dotProduct_sub, mulVec_smul, dotProduct_smul, smul_eq_mul, mulVec_add,
      dotProduct_add]
    ring
  rw [e]
  refine this.trans (le_of_eq ?_)
  ring

/-! ### One step -/

variable {S : Matrix (Fin m) (Fin m) ℝ}

/-- the equations at `t` for two points with their derivatives -/
theorem diff_eq (hx : Solves n t0 x x1 x2 x3) {t : ℝ} (ht : t0 ≤ t) {y d : Fin m → ℝ}
    (h : n.mna *ᵥ y + gminMat n.nn n.gmin *ᵥ y + n.D *ᵥ d + n.N + n.Tt t = 0) (u : Fin m → ℝ) :
    u ⬝ᵥ ((S * (n.mna + gminMat n.nn n.gmin)) *ᵥ (y - x t)) + u ⬝ᵥ ((S * n.D) *ᵥ (d - x1 t)) = 0 := by
  have h2 : (n.mna + gminMat n.nn n.gmin) *ᵥ (y - x t) + n.D *ᵥ (d - x1 t) = 0 := by
    rw [mulVec_sub, mulVec_sub, add_mulVec, add_mulVec]
    have h1 := hx.eq t ht
    have e : n.mna *ᵥ y + gminMat n.nn n.gmin *ᵥ y - (n.mna *ᵥ x t + gminMat n.nn n.gmin *ᵥ x t) + (n.D *ᵥ d - n.D *ᵥ x1 t) =
      (n.mna *ᵥ y + gminMat n.nn n.gmin *ᵥ y + n.D *ᵥ d + n.N + n.Tt t) -
        (n.mna *ᵥ x t + gminMat n.nn n.gmin *ᵥ x t + n.D *ᵥ x1 t + n.N + n.Tt t) := by abel
    rw [e, h, h1, sub_zero]
  rw [← dotProduct_add, ← mulVec_mulVec, ← mulVec_mulVec, ← mulVec_add, h2, mulVec_zero, dotProduct_zero]

theorem euler_step (hp : Lossy S n) (hx : Solves n t0 x x1 x2 x3) {M a h : ℝ} (hh : 0 < h)
    (hM : ∀ t, t0 ≤ t → nrm (S * n.D) (x2 t) ≤ M) (ha : t0 ≤ a) {y0 y1 : Fin m → ℝ}
    (e : n.mna *ᵥ y1 + gminMat n.nn n.gmin *ᵥ y1 + n.D *ᵥ ((1 / h) • (y1 - y0)) + n.N + n.Tt (a + h) = 0) :
    nrm (S * n.D) (y1 - x (a + h)) ≤ nrm (S * n.D) (y0 - x a) + M / 2 * h ^ 2 := by
  have hr := euler_local hp.form hx.d1 hx.d2 hh.le hM ha
  refine (euler_error (r := -(x (a + h) - x a - h • x1 (a + h))) hp.form ?_).trans (add_le_add_right (le_of_eq_of_le ?_ hr) _)
  · have h1 := diff_eq (S := S) hx (ha.trans (by linarith)) e (y1 - x (a + h))
    have h2 := hp.static (y1 - x (a + h))
    have e3 : y1 - x (a + h) - (y0 - x a) - -(x (a + h) - x a - h • x1 (a + h)) = h • ((1 / h) • (y1 - y0) - x1 (a + h)) := by
      funext i
      simp only [Pi.sub_apply, Pi.neg_apply, Pi.smul_apply, smul_eq_mul]
      field_simp
      ring
    rw [e3, mulVec_smul, dotProduct_smul, smul_eq_mul]
    have : (y1 - x (a + h)) ⬝ᵥ ((S * n.D) *ᵥ ((1 / h) • (y1 - y0) - x1 (a + h))) ≤ 0 := by linarith
    nlinarith
  · unfold nrm
    rw [mulVec_neg, dotProduct_neg, neg_dotProduct, neg_neg]

theorem trap_step (hp : Lossy S n) (hx : Solves n t0 x x1 x2 x3) {M a h : ℝ} (hh : 0 < h)
    (hM : ∀ t, t0 ≤ t → nrm (S * n.D) (x3 t) ≤ M) (ha : t0 ≤ a) {y0 y1 d0 : Fin m → ℝ}
    (e0 : n.mna *ᵥ y0 + gminMat n.nn n.gmin *ᵥ y0 + n.D *ᵥ d0 + n.N + n.Tt a = 0)
    (e : n.mna *ᵥ y1 + gminMat n.nn n.gmin *ᵥ y1 + n.D *ᵥ ((2 / h) • (y1 - y0) - d0) + n.N + n.Tt (a + h) = 0) :
    nrm (S * n.D) (y1 - x (a + h)) ≤ nrm (S * n.D) (y0 - x a) + M / 12 * h ^ 3 := by
  have hr := trap_local hp.form hx hh.le hM ha
  refine (trap_error (r := -(x (a + h) - x a - (h / 2) • (x1 (a + h) + x1 a))) hp.form ?_).trans
    (add_le_add_right (le_of_eq_of_le ?_ hr) _)
  · set u := y1 - x (a + h) + (y0 - x a) with hu
    have h0 := diff_eq (S := S) hx ha e0 u
    have h1 := diff_eq (S := S) hx (ha.trans (by linarith)) e u
    have h2 := hp.static u
    have e3 : y1 - x (a + h) - (y0 - x a) - -(x (a + h) - x a - (h / 2) • (x1 (a + h) + x1 a)) =
        (h / 2) • (((2 / h) • (y1 - y0) - d0 - x1 (a + h)) + (d0 - x1 a)) := by
      funext i
      simp only [Pi.sub_apply, Pi.add_apply, Pi.neg_apply, Pi.smul_apply, smul_eq_mul]
      field_simp
      ring
    rw [e3, mulVec_smul, dotProduct_smul, smul_eq_mul, mulVec_add, dotProduct_add]
    rw [hu, mulVec_add, dotProduct_add, ← hu] at h2
    have : u ⬝ᵥ ((S * n.D) *ᵥ ((2 / h) • (y1 - y0) - d0 - x1 (a + h))) + u ⬝ᵥ ((S * n.D) *ᵥ (d0 - x1 a)) ≤ 0 := by linarith
    have : 0 < h / 2 := by positivity
    nlinarith
  · unfold nrm
    rw [mulVec_neg, dotProduct_neg, neg_dotProduct, neg_neg]

/-! ### The loop -/

/-- which relation between the new point and the newest known one the formulas of the two methods express -/
theorem formula_rel {mt : Tran.Meth} (hm : mt = .euler ∨ mt = .trap) {ctl : Bool} {iter : Nat} {e : Entry ℝ m} {b : List (Entry ℝ m)}
    {h : ℝ} {f : Formula ℝ m} (hf : formula mt ctl iter (e :: b) h = .ok f) (y : Fin m → ℝ) :
    ((mt = .euler ∨ iter = 0) ∧ f.c1 • y + f.c0 = (1 / h) • (y - e.x)) ∨
      (mt = .trap ∧ iter ≠ 0 ∧ ∃ d, e.dx = some d ∧ f.c1 • y + f.c0 = (2 / h) • (y - e.x) - d) := by
  have euler : ∀ p (b : List (Entry ℝ m)), eulerDf (e :: b) h p = .ok f → f.c1 • y + f.c0 = (1 / h) • (y - e.x) := by
    intro p b h'
    simp only [eulerDf, List.length_cons, Nat.add_eq_zero_iff, one_ne_zero, and_false, if_false, Except.ok.injEq] at h'
    subst h'
    funext i
    simp only [DF.implicitEuler, xAt, Pi.add_apply, Pi.smul_apply, Pi.sub_apply, smul_eq_mul, List.getElem?_cons_zero, Option.map_some,
      Option.getD_some]
    ring
  unfold formula at hf
  split at hf
  · rename_i hi
    refine .inl ⟨?_, euler _ _ hf⟩
    rcases hm with rfl | rfl
    · exact .inl rfl
    · have : firstIters .trap = 1 := rfl
      right; omega
  · rename_i hi
    rcases hm with rfl | rfl
    · exact .inl ⟨.inl rfl, euler _ _ hf⟩
    · right
      have : firstIters .trap = 1 := rfl
      refine ⟨rfl, by omega, ?_⟩
      simp only [Meth.df, trapDf] at hf
      split at hf
      · cases hf
      · rename_i hd
        obtain ⟨d, hd⟩ : ∃ d, e.dx = some d := by
          cases hdx : e.dx with
          | none => simp [hdx] at hd
          | some d => exact ⟨d, rfl⟩
        refine ⟨d, hd, ?_⟩
        split at hf
        · cases hf
        · split at hf
          · cases hf
          · cases hf
            funext i
            simp only [DF.trap, xAt, dxAt, Pi.add_apply, Pi.smul_apply, Pi.sub_apply, smul_eq_mul, List.getElem?_cons_zero, Option.map_some,
              Option.getD_some, Option.bind_some, hd]
            ring

/-- what holds after each pass -/
structure Ok (c : Cfg ℝ) (P : Entry ℝ m → Prop) (tstart : ℝ) (R : ℝ → Prop) (x0 : Fin m → ℝ) (bd : Entry ℝ m → Prop) (s : St ℝ m) : Prop where
  inv : Inv c tstart x0 s
  pos : 0 < s.tstep
  le : R s.tstep
  holds : ∀ e ∈ s.points, P e
  t : ∀ e ∈ history tstart x0 s.points, tstart ≤ e.t
  bound : ∀ e ∈ history tstart x0 s.points, bd e

/-- points stay -/
theorem run_sub (c : Cfg ℝ) (n : Net ℝ m) (x0 : Fin m → ℝ) (l : List (Ctl ℝ)) (s : St ℝ m) {e : Entry ℝ m} (he : e ∈ s.points) :
    e ∈ (run c n x0 l s).st.points := by
  induction l generalizing s with
  | nil => exact he
  | cons a r ih =>
    unfold run
    rcases hpass : pass c n x0 s a with s' | s' | s'
    · refine ih s' ?_
      rcases pass_cases hpass with ⟨st, rfl⟩ | ⟨f, y, -, -, st, rfl⟩
      · exact he
      · exact List.mem_append_left _ he
    all_goals
      have : s' = s := by
        unfold pass at hpass
        split at hpass
        · cases hpass <;> rfl
        · split at hpass
          · cases a <;> cases hpass
          · split at hpass
            · cases a <;> cases hpass
            · cases hpass <;> rfl
          · cases hpass <;> rfl
      subst this
      exact he

theorem run_ok {c : Cfg ℝ} (hm : c.meth = .euler ∨ c.meth = .trap) (hlen : 0 < c.len) {n : Net ℝ m} {tstart : ℝ} {R : ℝ → Prop} {x0 : Fin m → ℝ}
    {P Q bd : Entry ℝ m → Prop}
    (hH : ∀ (f : Formula ℝ m) (t : ℝ) (xs x1 : Fin m → ℝ), 0 < f.c1 → dcSolve c.o (n.at f t) n.gmin (some xs) = .solved x1 →
      Q ⟨t, x1, some (f.c1 • x1 + f.c0)⟩ → P ⟨t, x1, some (f.c1 • x1 + f.c0)⟩)
    (hE : ∀ (e : Entry ℝ m) (h : ℝ) (y : Fin m → ℝ), c.meth = .euler ∨ e = ⟨tstart, x0, none⟩ → 0 < h → R h → tstart ≤ e.t →
      P ⟨e.t + h, y, some ((1 / h) • (y - e.x))⟩ → bd e → bd ⟨e.t + h, y, some ((1 / h) • (y - e.x))⟩)
    (hT : c.meth = .trap → ∀ (e : Entry ℝ m) (h : ℝ) (y d : Fin m → ℝ), e.dx = some d → 0 < h → R h → tstart ≤ e.t → P e →
      P ⟨e.t + h, y, some ((2 / h) • (y - e.x) - d)⟩ → bd e → bd ⟨e.t + h, y, some ((2 / h) • (y - e.x) - d)⟩)
    (l : List (Ctl ℝ)) (hl : ∀ a ∈ l, 0 < a.step ∧ R a.step) {s : St ℝ m} (hs : Ok c P tstart R x0 bd s)
    (hQ : ∀ e ∈ (run c n x0 l s).st.points, Q e) : Ok c P tstart R x0 bd (run c n x0 l s).st := by
  induction l generalizing s with
  | nil => exact hs
  | cons a r ih =>
    unfold run at hQ ⊢
    rcases hpass : pass c n x0 s a with s' | s' | s'
    · have har : ∀ b ∈ r, 0 < b.step ∧ R b.step := fun b hb => hl b (List.mem_cons_of_mem _ hb)
      have hst := hl a (List.mem_cons_self ..)
      have hi' := inv_pass hs.inv hpass
      have hps := pass_step hpass
      rw [hpass] at hQ
      refine ih har ?_ hQ
      rcases pass_cases hpass with ⟨st, rfl⟩ | ⟨f, y, hf, hx, st, rfl⟩
      · exact ⟨hi', by rw [hps]; exact hst.1, by rw [hps]; exact hst.2, hs.holds, hs.t, hs.bound⟩
      · have hc1 : 0 < f.c1 := formula_pos hm hs.pos hf
        have hN := hH f _ _ y hc1 hx (hQ _ (run_sub c n x0 r _ (by simp)))
        obtain ⟨k, hk⟩ : ∃ k, c.len = k + 1 := ⟨c.len - 1, by omega⟩
        obtain ⟨e, tl, hhist⟩ : ∃ e tl, history tstart x0 s.points = e :: tl := by
          unfold history
          rcases s.points.reverse with _ | ⟨e, r⟩
          · exact ⟨_, _, rfl⟩
          · exact ⟨_, _, rfl⟩
        have hbuf : s.buf = e :: tl.take k := by rw [hs.inv.buf, hk, hhist, List.take_succ_cons]
        have het : e.t = s.time := by
          have := hs.inv.time
          rw [hhist] at this
          exact this.symm
        have hin : e ∈ history tstart x0 s.points := by rw [hhist]; simp
        have hb : bd ⟨s.time + s.tstep, y, some (f.c1 • y + f.c0)⟩ := by
          rw [hbuf] at hf
          rcases formula_rel hm hf y with ⟨h1, h2⟩ | ⟨h1, h0, d, h3, h2⟩
          · rw [h2] at hN ⊢
            rw [← het] at hN ⊢
            refine hE e _ y ?_ hs.pos hs.le (hs.t e hin) hN (hs.bound e hin)
            rcases h1 with h1 | h1
            · exact .inl h1
            · right
              have : s.points = [] := List.length_eq_zero_iff.1 (by rw [← hs.inv.iter]; exact h1)
              rw [this] at hhist
              simp only [history, List.reverse_nil, List.nil_append, List.cons.injEq] at hhist
              exact hhist.1.symm
          · rw [h2] at hN ⊢
            rw [← het] at hN ⊢
            refine hT h1 e _ y d h3 hs.pos hs.le (hs.t e hin) (hs.holds e ?_) hN (hs.bound e hin)
            rcases List.mem_append.1 (by simpa [history] using hin : e ∈ s.points ++ [⟨tstart, x0, none⟩]) with h | h
            · exact h
            · rw [List.mem_singleton.1 h] at h3
              cases h3
        refine ⟨hi', by rw [hps]; exact hst.1, by rw [hps]; exact hst.2, ?_, ?_, ?_⟩
        · intro e' he'
          rcases List.mem_append.1 he' with he' | he'
          · exact hs.holds e' he'
          · rw [List.mem_singleton.1 he']; exact hN
        · intro e' he'
          simp only [history, List.reverse_append, List.reverse_singleton, List.cons_append, List.nil_append] at he'
          rcases List.mem_cons.1 he' with rfl | he'
          · have := hs.t e hin
            have := hs.pos
            show tstart ≤ s.time + s.tstep
            linarith
          · exact hs.t e' he'
        · intro e' he'
          simp only [history, List.reverse_append, List.reverse_singleton, List.cons_append, List.nil_append] at he'
          rcases List.mem_cons.1 he' with rfl | he'
          · exact hb
          · exact hs.bound e' he'
    all_goals
      have : s' = s := by
        unfold pass at hpass
        split at hpass
        · cases hpass <;> rfl
        · split at hpass
          · cases a <;> cases hpass
          · split at hpass
            · cases a <;> cases hpass
            · cases hpass <;> rfl
          · cases hpass <;> rfl
      subst this
      exact hs

theorem ok_start {c : Cfg ℝ} {tstart step : ℝ} {R : ℝ → Prop} {x0 : Fin m → ℝ} {P bd : Entry ℝ m → Prop} (h0 : 0 < step) (h1 : R step)
    (hb : bd ⟨tstart, x0, none⟩) : Ok c P tstart R x0 bd (start c tstart step x0) :=
  ⟨inv_start c tstart step x0, h0, h1, by simp [start], by simp [start, history], by simpa [start, history] using hb⟩

/-- every pass is solved as it stands: Gmin and source stepping switched off, or no need for them -/
def Direct (o : OOpts ℝ) (n : Net ℝ m) : Prop :=
  Plain o ∧ ((o.meth.gmin = false ∧ o.meth.src = false) ∨
    (o.meth.std = true ∧ ∀ a : ℝ, 0 < a → (n.mna + a • n.D + gminMat n.nn n.gmin).det ≠ 0))

theorem direct_holds {o : OOpts ℝ} {n : Net ℝ m} (hd : Direct o n) (hl : n.nonlinear = false) (hk : n.locked = []) (f : Formula ℝ m)
    (t : ℝ) (xs y : Fin m → ℝ) (h1 : 0 < f.c1) (hx : dcSolve o (n.at f t) n.gmin (some xs) = .solved y) :
    Holds n ⟨t, y, some (f.c1 • y + f.c0)⟩ := by
  obtain ⟨ho, ⟨hg, hs⟩ | ⟨hm, hr⟩⟩ := hd
  · exact C121_step ho n hl hk f t y (loopX_std o hg hs _ _ _ _ _ _ (stdOnly_next hg hs ⟨rfl, rfl, by rintro y ⟨⟩⟩) hx)
  · exact C121_regular_step ho hm n hl hk f t xs y (hr f.c1 h1) hx

/-- C183, implicit Euler: the error, in the energy norm, is at most the initial one and `M/2` times the largest step and the
time passed, where `M` bounds the second derivative of the solution: it goes to zero with the largest step. -/
theorem C183_euler {c : Cfg ℝ} (hm : c.meth = .euler) (hlen : 0 < c.len) (hd : Direct c.o n) (hp : Lossy S n)
    (hx : Solves n t0 x x1 x2 x3) {M H : ℝ} (hM : ∀ t, t0 ≤ t → nrm (S * n.D) (x2 t) ≤ M) {step : ℝ} (h0 : 0 < step) (h1 : step ≤ H)
    (x0 : Fin m → ℝ) (l : List (Ctl ℝ)) (hl : ∀ a ∈ l, 0 < a.step ∧ a.step ≤ H) :
    ∀ e ∈ (run c n x0 l (start c t0 step x0)).st.points,
      nrm (S * n.D) (e.x - x e.t) ≤ nrm (S * n.D) (x0 - x t0) + M / 2 * H * (e.t - t0) := by
  have hM0 : 0 ≤ M := (nrm_nonneg _).trans (hM t0 le_rfl)
  have key := run_ok (R := fun h => h ≤ H) (tstart := t0) (x0 := x0) (bd := fun e => nrm (S * n.D) (e.x - x e.t) ≤ nrm (S * n.D) (x0 - x t0) + M / 2 * H * (e.t - t0))
    (.inl hm) hlen (n := n) (P := Holds n) (Q := fun _ => True)
    (fun f t xs y h h' _ => direct_holds hd hp.linear hp.locked f t xs y h h') ?_ ?_ l hl
    (ok_start (c := c) (tstart := t0) (x0 := x0) h0 h1 (by simp)) fun _ _ => trivial
  · exact fun e he => key.bound e (by simp [history, he])
  · intro e h y _ hh hhH ht ⟨d, hd1, hd2⟩ hb
    cases hd1
    have := euler_step hp hx hh hM ht hd2
    simp only at hb ⊢
    have h2 : M / 2 * h ^ 2 ≤ M / 2 * H * h := by
      have : 0 ≤ M / 2 * h * (H - h) := mul_nonneg (by positivity) (by linarith)
      nlinarith
    linarith
  · intro h
    rw [hm] at h
    cases h

/-- C183, the trapezoidal rule: second order. The first point is computed with implicit Euler. -/
theorem C183_trap {c : Cfg ℝ} (hm : c.meth = .trap) (hlen : 0 < c.len) (hd : Direct c.o n) (hp : Lossy S n)
    (hx : Solves n t0 x x1 x2 x3) {M M3 H : ℝ} (hM : ∀ t, t0 ≤ t → nrm (S * n.D) (x2 t) ≤ M)
    (hM3 : ∀ t, t0 ≤ t → nrm (S * n.D) (x3 t) ≤ M3) {step : ℝ} (h0 : 0 < step) (h1 : step ≤ H)
    (x0 : Fin m → ℝ) (l : List (Ctl ℝ)) (hl : ∀ a ∈ l, 0 < a.step ∧ a.step ≤ H) :
    ∀ e ∈ (run c n x0 l (start c t0 step x0)).st.points,
      nrm (S * n.D) (e.x - x e.t) ≤ nrm (S * n.D) (x0 - x t0) + M / 2 * H ^ 2 + M3 / 12 * H ^ 2 * (e.t - t0) := by
  have hM0 : 0 ≤ M := (nrm_nonneg _).trans (hM t0 le_rfl)
  have hM30 : 0 ≤ M3 := (nrm_nonneg _).trans (hM3 t0 le_rfl)
  have key := run_ok (R := fun h => h ≤ H) (tstart := t0) (x0 := x0) (bd := fun e => nrm (S * n.D) (e.x - x e.t) ≤
      nrm (S * n.D) (x0 - x t0) + M / 2 * H ^ 2 + M3 / 12 * H ^ 2 * (e.t - t0))
    (.inr hm) hlen (n := n) (P := Holds n) (Q := fun _ => True)
    (fun f t xs y h h' _ => direct_holds hd hp.linear hp.locked f t xs y h h') ?_ ?_ l hl
    (ok_start (c := c) (tstart := t0) (x0 := x0) h0 h1 (by simp; positivity)) fun _ _ => trivial
  · exact fun e he => key.bound e (by simp [history, he])
  · intro e h y he hh hhH ht ⟨d, hd1, hd2⟩ hb
    cases hd1
    have he : e = ⟨t0, x0, none⟩ := by
      rcases he with he | he
      · rw [hm] at he; cases he
      · exact he
    subst he
    have := euler_step hp hx hh hM ht hd2
    simp only at this ⊢
    have h2 : M / 2 * h ^ 2 ≤ M / 2 * H ^ 2 := mul_le_mul_of_nonneg_left (pow_le_pow_left₀ hh.le hhH 2) (by positivity)
    have h3 : 0 ≤ M3 / 12 * H ^ 2 * (t0 + h - t0) := mul_nonneg (by positivity) (by linarith)
    linarith
  · intro _ e h y d hde hh hhH ht ⟨d0, he1, he2⟩ ⟨d1, hd1, hd2⟩ hb
    cases hd1
    rw [hde] at he1
    cases he1
    have := trap_step hp hx hh hM3 ht he2 hd2
    simp only at hb ⊢
    have h2 : M3 / 12 * h ^ 3 ≤ M3 / 12 * H ^ 2 * h := by
      have : h ^ 2 ≤ H ^ 2 := pow_le_pow_left₀ hh.le hhH 2
      have : 0 ≤ M3 / 12 * h * (H ^ 2 - h ^ 2) := mul_nonneg (by positivity) (by linarith)
      nlinarith
    linarith

/-! ### Circuits -/

section circuits
open Verif.Circuit Verif.Mna Verif.Dyn Verif.Rlc Verif.Conserve

/-- resistor, capacitor, inductor, coupling or independent source; no source or inductor has both ends at one node -/
def Linear : Elem ℝ → Prop
  | .R .. | .C .. | .K _ | .I .. => True
  | .L _ n1 n2 _ _ _ | .V _ n1 n2 _ => n1 ≠ n2
  | _ => False

theorem linear_static {circ : List (Elem ℝ)} (hp : ∀ e ∈ circ, Linear e) :
    (∀ e ∈ circ, Proper e) ∧ (∀ e ∈ circ, Mna.Plain e) := by
  constructor <;> intro e he <;> have := hp e he <;> cases e <;> simp_all [Linear, Proper, Mna.Plain]

theorem kcl_diff {circ : List (Elem ℝ)} {nv : Nat} (hnv : 0 < nv) (x : Vec ℝ) (val : Src ℝ → ℝ)
    (l : List (Elem ℝ)) (k : Nat) (hp : ∀ e ∈ l, Linear e) (he : ∀ e ∈ l, NodesLt nv e) :
    ∑ r ∈ Finset.range nv, x r * (kcl circ nv x val l k r - kcl circ nv (fun _ => 0) val l k r) =
      (l.map (lost x)).sum + brSum (fun j e => x (nv + j) * (law circ nv x val e - law circ nv (fun _ => 0) val e)) l k := by
  induction l generalizing k with
  | nil => simp [kcl, brSum]
  | cons e t ih =>
    have h1 := hp e (List.mem_cons_self ..)
    have h2 := (he e (List.mem_cons_self ..)).term_lt' hnv
    have ih' := ih (k + if e.vde then 1 else 0) (fun e' h' => hp e' (List.mem_cons_of_mem _ h'))
      (fun e' h' => he e' (List.mem_cons_of_mem _ h'))
    simp only [kcl, brSum, List.map_cons, List.sum_cons]
    have e1 : ∀ r, x r * (inj (term e).1 (term e).2 (current circ nv x val k e) r + kcl circ nv x val t (k + if e.vde then 1 else 0) r -
        (inj (term e).1 (term e).2 (current circ nv (fun _ => 0) val k e) r +
          kcl circ nv (fun _ => 0) val t (k + if e.vde then 1 else 0) r)) =
        x r * inj (term e).1 (term e).2 (current circ nv x val k e) r - x r * inj (term e).1 (term e).2 (current circ nv (fun _ => 0) val k e) r +
        x r * (kcl circ nv x val t (k + if e.vde then 1 else 0) r - kcl circ nv (fun _ => 0) val t (k + if e.vde then 1 else 0) r) := by
      intro r; ring
    simp only [e1, Finset.sum_add_distrib, Finset.sum_sub_distrib]
    rw [ih', sum_inj x _ _ _ h2.1 h2.2, sum_inj x _ _ _ h2.1 h2.2]
    cases e <;> simp only [Linear] at h1 <;> simp [lost, current, term, Elem.vde, law] <;> ring

theorem static_form' {nv m : Nat} {circ : List (Elem ℝ)} {s : Mna.Sys ℝ} (hnv : 0 < nv)
    (he : ∀ e ∈ circ, NodesLt nv e) (hp : ∀ e ∈ circ, Linear e) (h : generate circ nv = .ok s)
    (hm : s.size = m + 1) (x : Fin m → ℝ) :
    x ⬝ᵥ ((signs m nv * reduce m s.M) *ᵥ x) = (circ.map (lost (Rlc.ext x))).sum := by
  obtain ⟨h1, h2⟩ := linear_static hp
  obtain ⟨hz, hn, hb⟩ := C07_equations_are_circuit_laws_partial he h1 h2 h (Rlc.ext x)
  obtain ⟨-, hn0, hb0⟩ := C07_equations_are_circuit_laws_partial he h1 h2 h (fun _ => 0)
  have z : ∀ r, Mna.mulVec s.size s.M (fun _ => (0 : ℝ)) r = 0 := fun r => by simp [Mna.mulVec]
  have q1 : ∀ r < nv, Mna.mulVec (m + 1) s.M (Rlc.ext x) r =
      kcl circ nv (Rlc.ext x) staticVal circ 0 r - kcl circ nv (fun _ => 0) staticVal circ 0 r := by
    intro r hr
    have a := hn r hr
    have b := hn0 r hr
    rw [z, zero_add] at b
    rw [← hm]
    linarith
  have q2 : ∀ k e, (vdes circ)[k]? = some e → Mna.mulVec (m + 1) s.M (Rlc.ext x) (nv + k) =
      law circ nv (Rlc.ext x) staticVal e - law circ nv (fun _ => 0) staticVal e := by
    intro k e hk
    have a := hb k e hk
    have b := hb0 k e hk
    rw [z, zero_add] at b
    rw [← hm]
    linarith
  rw [form (nv := nv) (b := (vdes circ).length) (by omega)]
  have e1 : ∑ r ∈ Finset.range nv, Rlc.ext x r * Mna.mulVec (m + 1) s.M (Rlc.ext x) r = ∑ r ∈ Finset.range nv, Rlc.ext x r *
      (kcl circ nv (Rlc.ext x) staticVal circ 0 r - kcl circ nv (fun _ => 0) staticVal circ 0 r) :=
    Finset.sum_congr rfl fun r hr => by rw [q1 r (Finset.mem_range.1 hr)]
  rw [e1, kcl_diff hnv _ _ _ _ hp he, brSum_eq _ (fun j => Rlc.ext x (nv + j) * Mna.mulVec (m + 1) s.M (Rlc.ext x) (nv + j))]
  · simp
  · intro j e hj
    simp only [Nat.zero_add, q2 j e hj]

theorem dynamic_form' {nv m : Nat} {circ : List (Elem ℝ)} {cmin : ℝ} {D : Mat ℝ} (hnv : 0 < nv)
    (he : ∀ e ∈ circ, NodesLt nv e) (hp : ∀ e ∈ circ, Linear e)
    (hm : m + 1 = nv + (vdes circ).length)
    (h : generateD circ nv (m + 1) cmin = .ok D) (x y : Fin m → ℝ) :
    x ⬝ᵥ ((signs m nv * reduce m D) *ᵥ y) =
      (circ.map (capForm (Rlc.ext x) (Rlc.ext y))).sum + cmin * ∑ r ∈ Finset.range nv, Rlc.ext x r * Rlc.ext y r +
        magForm circ nv (Rlc.ext x) (Rlc.ext y) := by
  rw [form hm]
  have e2 : ∑ r ∈ Finset.range nv, Rlc.ext x r * Mna.mulVec (m + 1) D (Rlc.ext y) r =
      (circ.map (capForm (Rlc.ext x) (Rlc.ext y))).sum + cmin * ∑ r ∈ Finset.range nv, Rlc.ext x r * Rlc.ext y r := by
    rw [← nodeW_dot (by omega) (Rlc.ext x) rfl _ (fun r => Mna.mulVec (m + 1) D (Rlc.ext y) r) (fun i => reduce_row D y i),
      wcharge_eq hnv he hm h _ rfl]
    rfl
  rw [e2, sub_eq_add_neg, ← Finset.sum_neg_distrib]
  congr 1
  rw [hm] at h ⊢
  rw [magForm, ← brSum_add,
    brSum_eq _ (fun j => -(Rlc.ext x (nv + j) * Mna.mulVec (nv + (vdes circ).length) D (Rlc.ext y) (nv + j)))]
  · simp
  · intro j e hj
    have hin : e ∈ circ := (List.mem_filter.1 (List.mem_of_getElem? hj)).1
    have hv : e.vde = true := (List.mem_filter.1 (List.mem_of_getElem? hj)).2
    have h1 := hp e hin
    rw [Nat.zero_add, C08_branch_rows hnv he h (Rlc.ext y) rfl j e hj]
    cases e <;> simp only [Linear] at h1 <;> simp only [Elem.vde, Bool.false_eq_true] at hv
    · simp only [flux, indForm, mutForm]
      ring
    · simp [flux, indForm, mutForm]

/-- twice the energy stored in the elements (and the small capacitors `cmin`) -/
noncomputable def stored (circ : List (Elem ℝ)) (nv : Nat) (cmin : ℝ) (x : Fin m → ℝ) : ℝ :=
  (circ.map (capForm (Rlc.ext x) (Rlc.ext x))).sum + cmin * ∑ r ∈ Finset.range nv, Rlc.ext x r * Rlc.ext x r +
    magForm circ nv (Rlc.ext x) (Rlc.ext x)

theorem lossy {nv m : Nat} {circ : List (Elem ℝ)} {s : Mna.Sys ℝ} {D : Mat ℝ} {cmin gmin : ℝ} (hnv : 0 < nv)
    (he : ∀ e ∈ circ, NodesLt nv e) (hp : ∀ e ∈ circ, Linear e) (hpos : ∀ e ∈ circ, Positive e)
    (h : generate circ nv = .ok s) (hm : s.size = m + 1) (hd : generateD circ nv (m + 1) cmin = .ok D)
    (hc : 0 ≤ cmin) (hg : 0 ≤ gmin) (hsym : ∀ x y, magForm circ nv x y = magForm circ nv y x)
    (hmag : ∀ x, 0 ≤ magForm circ nv x x) (Tt : ℝ → Fin m → ℝ) :
    Lossy (signs m nv) (netT m s D nv gmin Tt) := by
  have hz := (generate_row (fun _ => 0) he (linear_static hp).1 h).1
  have hm' : m + 1 = nv + (vdes circ).length := by omega
  have bil := dynamic_form' hnv he hp hm' hd
  have symm : ∀ x y : Fin m → ℝ, x ⬝ᵥ ((signs m nv * reduce m D) *ᵥ y) = y ⬝ᵥ ((signs m nv * reduce m D) *ᵥ x) := by
    intro x y
    have e1 : capForm (Rlc.ext x) (Rlc.ext y) = capForm (Rlc.ext y) (Rlc.ext x) := funext (capForm_symm _ _)
    rw [bil, bil, e1, hsym]
    simp only [mul_comm]
  refine ⟨rfl, rfl, ⟨?_, fun v => ?_⟩, fun v => ?_⟩
  · ext i j
    have := symm (Pi.single j 1) (Pi.single i 1)
    simpa [netT, netOf] using this
  · simp only [netT, netOf]
    rw [bil]
    refine add_nonneg (add_nonneg (sum_nonneg' _ _ fun e hm => ?_)
      (mul_nonneg hc (Finset.sum_nonneg fun r _ => mul_self_nonneg _))) (hmag _)
    have := hpos e hm
    cases e <;> simp only [capForm, Positive] at this ⊢ <;> try exact le_refl _
    rw [mul_assoc]
    exact mul_nonneg this (mul_self_nonneg _)
  · simp only [netT, netOf]
    have hS : signs m nv * gminMat (nv - 1) (1 : ℝ) = gminMat (nv - 1) 1 := by
      simp only [signs, Op.gminMat, Matrix.diagonal_mul_diagonal]
      congr 1
      funext i
      by_cases hi : i.val < nv - 1
      · rw [if_pos hi, sgn, if_pos (by omega), one_mul]
      · rw [if_neg hi, mul_zero]
    rw [gminMat_smul, mul_add, Matrix.mul_smul, hS, add_mulVec, dotProduct_add, smul_mulVec, dotProduct_smul, smul_eq_mul,
      static_form' hnv he hp h hm]
    refine add_nonneg (sum_nonneg' _ _ fun e hm => ?_) (mul_nonneg hg (gmin_form _ _))
    have := hpos e hm
    cases e <;> simp only [lost, Positive] at this ⊢ <;> try exact le_refl _
    exact div_nonneg (mul_self_nonneg _) this.le

/-- C183 for circuits of resistors, capacitors, inductors (coupled or not, with nonnegative energy) and independent sources: with
implicit Euler and steps of at most `H`, the square root of the energy of the error grows at most by `M/2·H` per unit of time, where
`M` bounds that of the second derivative of the solution. -/
theorem C183_circuit_euler {c : Cfg ℝ} (hme : c.meth = .euler) (hlen : 0 < c.len) {nv m : Nat} {circ : List (Elem ℝ)} {s : Mna.Sys ℝ}
    {D : Mat ℝ} {cmin gmin : ℝ} (hnv : 0 < nv)
    (he : ∀ e ∈ circ, NodesLt nv e) (hp : ∀ e ∈ circ, Linear e) (hpos : ∀ e ∈ circ, Positive e)
    (h : generate circ nv = .ok s) (hm : s.size = m + 1) (hd : generateD circ nv (m + 1) cmin = .ok D)
    (hc : 0 ≤ cmin) (hg : 0 ≤ gmin) (hsym : ∀ x y, magForm circ nv x y = magForm circ nv y x)
    (hmag : ∀ x, 0 ≤ magForm circ nv x x) {Tt : ℝ → Fin m → ℝ} (hdir : Direct c.o (netT m s D nv gmin Tt))
    {x x1 x2 x3 : ℝ → Fin m → ℝ} {t0 : ℝ} (hx : Solves (netT m s D nv gmin Tt) t0 x x1 x2 x3)
    {M H : ℝ} (hM : ∀ t, t0 ≤ t → √(stored circ nv cmin (x2 t)) ≤ M) {step : ℝ} (h0 : 0 < step) (h1 : step ≤ H)
    (l : List (Ctl ℝ)) (hl : ∀ a ∈ l, 0 < a.step ∧ a.step ≤ H) :
    ∀ e ∈ (run c (netT m s D nv gmin Tt) (x t0) l (start c t0 step (x t0))).st.points,
      √(stored circ nv cmin (e.x - x e.t)) ≤ M / 2 * H * (e.t - t0) := by
  have hz := (generate_row (fun _ => 0) he (linear_static hp).1 h).1
  have hS : ∀ v : Fin m → ℝ, nrm (signs m nv * (netT m s D nv gmin Tt).D) v = √(stored circ nv cmin v) := fun v =>
    congrArg Real.sqrt (dynamic_form' hnv he hp (by omega) hd v v)
  intro e hme'
  have := C183_euler hme hlen hdir (lossy hnv he hp hpos h hm hd hc hg hsym hmag Tt) hx (M := M) (H := H)
    (fun t ht => by rw [hS]; exact hM t ht) h0 h1 (x t0) l hl e hme'
  rw [hS, hS, sub_self] at this
  have z : stored circ nv cmin (0 : Fin m → ℝ) = 0 := by
    have := dynamic_form' hnv he hp (by omega) hd (0 : Fin m → ℝ) 0
    rw [mulVec_zero, dotProduct_zero] at this
    exact this.symm
  rw [z, Real.sqrt_zero, zero_add] at this
  exact this

/-- C183 for circuits with the trapezoidal rule: second order. -/
theorem C183_circuit_trap {c : Cfg ℝ} (hme : c.meth = .trap) (hlen : 0 < c.len) {nv m : Nat} {circ : List (Elem ℝ)} {s : Mna.Sys ℝ}
    {D : Mat ℝ} {cmin gmin : ℝ} (hnv : 0 < nv)
    (he : ∀ e ∈ circ, NodesLt nv e) (hp : ∀ e ∈ circ, Linear e) (hpos : ∀ e ∈ circ, Positive e)
    (h : generate circ nv = .ok s) (hm : s.size = m + 1) (hd : generateD circ nv (m + 1) cmin = .ok D)
    (hc : 0 ≤ cmin) (hg : 0 ≤ gmin) (hsym : ∀ x y, magForm circ nv x y = magForm circ nv y x)
    (hmag : ∀ x, 0 ≤ magForm circ nv x x) {Tt : ℝ → Fin m → ℝ} (hdir : Direct c.o (netT m s D nv gmin Tt))
    {x x1 x2 x3 : ℝ → Fin m → ℝ} {t0 : ℝ} (hx : Solves (netT m s D nv gmin Tt) t0 x x1 x2 x3)
    {M M3 H : ℝ} (hM : ∀ t, t0 ≤ t → √(stored circ nv cmin (x2 t)) ≤ M) (hM3 : ∀ t, t0 ≤ t → √(stored circ nv cmin (x3 t)) ≤ M3)
    {step : ℝ} (h0 : 0 < step) (h1 : step ≤ H)
    (l : List (Ctl ℝ)) (hl : ∀ a ∈ l, 0 < a.step ∧ a.step ≤ H) :
    ∀ e ∈ (run c (netT m s D nv gmin Tt) (x t0) l (start c t0 step (x t0))).st.points,
      √(stored circ nv cmin (e.x - x e.t)) ≤ (M / 2 + M3 / 12 * (e.t - t0)) * H ^ 2 := by
  have hz := (generate_row (fun _ => 0) he (linear_static hp).1 h).1
  have hS : ∀ v : Fin m → ℝ, nrm (signs m nv * (netT m s D nv gmin Tt).D) v = √(stored circ nv cmin v) := fun v =>
    congrArg Real.sqrt (dynamic_form' hnv he hp (by omega) hd v v)
  intro e hme'
  have := C183_trap hme hlen hdir (lossy hnv he hp hpos h hm hd hc hg hsym hmag Tt) hx (M := M) (M3 := M3) (H := H)
    (fun t ht => by rw [hS]; exact hM t ht) (fun t ht => by rw [hS]; exact hM3 t ht) h0 h1 (x t0) l hl e hme'
  rw [hS, hS, sub_self] at this
  have z : stored circ nv cmin (0 : Fin m → ℝ) = 0 := by
    have := dynamic_form' hnv he hp (by omega) hd (0 : Fin m → ℝ) 0
    rw [mulVec_zero, dotProduct_zero] at this
    exact this.symm
  rw [z, Real.sqrt_zero] at this
  linarith

end circuits

/-! ### Examples -/

/-- 1 A into a resistor of 1 ohm with a capacitor of 1 F in parallel -/
def rc : Net ℝ 1 := ⟨!![1], !![1], ![-1], fun _ => 0, 1, 0, false, fun _ => 0, fun _ => 0, []⟩

theorem nrm_one (v : Fin 1 → ℝ) : nrm (1 * rc.D) v = |v 0| := by
  have : v ⬝ᵥ ((1 * rc.D) *ᵥ v) = v 0 ^ 2 := by
    rw [one_mul]
    simp [rc, dotProduct, mulVec, sq]
  rw [nrm, this, Real.sqrt_sq_eq_abs]

theorem rc_lossy : Lossy 1 rc := by
  refine ⟨rfl, rfl, ⟨?_, fun v => ?_⟩, fun v => ?_⟩
  · ext i j; fin_cases i; fin_cases j; rfl
  · rw [one_mul]
    simp [rc, dotProduct, mulVec, mul_self_nonneg]
  · have : gminMat (m := 1) 1 (0 : ℝ) = 0 := by ext i j; fin_cases i; fin_cases j; simp [gminMat]
    show 0 ≤ v ⬝ᵥ ((1 * (!![1] + gminMat 1 0)) *ᵥ v)
    rw [this, one_mul, add_zero]
    simp [dotProduct, mulVec, mul_self_nonneg]

/-- the capacitor is charged exponentially -/
theorem rc_solves : Solves rc 0 (fun t => ![1 - Real.exp (-t)]) (fun t => ![Real.exp (-t)]) (fun t => ![-Real.exp (-t)])
    (fun t => ![Real.exp (-t)]) := by
  have hd : ∀ t : ℝ, HasDerivAt (fun t => Real.exp (-t)) (-Real.exp (-t)) t := fun t =>
    ((hasDerivAt_neg t).exp).congr_deriv (by ring)
  refine ⟨fun t i => ?_, fun t i => ?_, fun t i => ?_, fun t _ => ?_⟩
  · fin_cases i
    exact ((hd t).const_sub 1).congr_deriv (by simp)
  · fin_cases i
    exact hd t
  · fin_cases i
    exact (hd t).neg.congr_deriv (by simp)
  · have : gminMat (m := 1) 1 (0 : ℝ) = 0 := by ext i j; fin_cases i; fin_cases j; simp [gminMat]
    show !![1] *ᵥ ![1 - Real.exp (-t)] + gminMat 1 0 *ᵥ ![1 - Real.exp (-t)] + !![1] *ᵥ ![Real.exp (-t)] + ![-1] + 0 = 0
    rw [this]
    funext i
    fin_cases i
    simp [vecHead]

theorem rc_direct (o : OOpts ℝ) (ho : Plain o) (h : o.meth.std = true) : Direct o rc := by
  refine ⟨ho, .inr ⟨h, fun a ha => ?_⟩⟩
  have : gminMat (m := 1) 1 (0 : ℝ) = 0 := by ext i j; fin_cases i; fin_cases j; simp [gminMat]
  show (!![1] + a • !![1] + gminMat 1 0 : Matrix (Fin 1) (Fin 1) ℝ).det ≠ 0
  rw [this]
  simp
  linarith

/-- the trapezoidal rule with steps of at most `H` -/
example {c : Cfg ℝ} (hm : c.meth = .trap) (hlen : 0 < c.len) (ho : Plain c.o) (hs : c.o.meth.std = true) {H step : ℝ}
    (h0 : 0 < step) (h1 : step ≤ H) (l : List (Ctl ℝ)) (hl : ∀ a ∈ l, 0 < a.step ∧ a.step ≤ H) :
    ∀ e ∈ (run c rc ![0] l (start c 0 step ![0])).st.points, |e.x 0 - (1 - Real.exp (-e.t))| ≤ (1 / 2 + e.t / 12) * H ^ 2 := by
  intro e he
  have hb : ∀ t : ℝ, 0 ≤ t → |Real.exp (-t)| ≤ 1 := by
    intro t ht
    rw [abs_of_pos (Real.exp_pos _)]
    exact Real.exp_le_one_iff.2 (by linarith)
  have := C183_trap hm hlen (rc_direct c.o ho hs) rc_lossy rc_solves (M := 1) (M3 := 1) (H := H)
    (fun t ht => by rw [nrm_one]; simpa using hb t ht) (fun t ht => by rw [nrm_one]; simpa using hb t ht) h0 h1 ![0] l hl e he
  rw [nrm_one, nrm_one] at this
  simp only [Pi.sub_apply, cons_val_zero, neg_zero, Real.exp_zero, sub_self, abs_zero, zero_add, sub_zero] at this
  linarith

/-- a filter fed by a source meets the hypotheses on circuits -/
example : let f : List (Circuit.Elem ℝ) := [.V "V1" 1 0 { dc := some 1 }, .R "R1" 1 2 1, .C "C1" 2 0 1 none, .L "L1" 2 0 3 none []]
    (∀ e ∈ f, Mna.NodesLt 3 e) ∧ (∀ e ∈ f, Linear e) ∧ (∀ e ∈ f, Rlc.Positive e) := by
  refine ⟨?_, ?_, ?_⟩ <;> simp [Mna.NodesLt, Linear, Rlc.Positive]

end Verif.Converge
