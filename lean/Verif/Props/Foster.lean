import Verif.Props.Immittance
import Mathlib.Analysis.Calculus.Deriv.Slope
import Mathlib.Analysis.Calculus.Deriv.MeanValue
import Mathlib.Topology.Instances.Matrix

/-!
# C213: Foster's reactance theorem
-/

namespace Verif.Foster
open Verif.Circuit Verif.Mna Verif.Dyn Verif.Rlc Verif.Recip Verif.Stable Verif.Immittance Complex Matrix

/-! ### Lossless systems -/

section Core
variable {m : Nat} {S Q : Matrix (Fin m) (Fin m) ℝ} {n : Fin m → ℝ}

/-- real and imaginary part of a solution of `(S + jw Q) x + n = 0` -/
def At (S Q : Matrix (Fin m) (Fin m) ℝ) (n : Fin m → ℝ) (w : ℝ) (u v : Fin m → ℝ) : Prop :=
  S *ᵥ u - w • (Q *ᵥ v) + n = 0 ∧ S *ᵥ v + w • (Q *ᵥ u) = 0

theorem At.dot {w : ℝ} {u v : Fin m → ℝ} (h : At S Q n w u v) (y : Fin m → ℝ) :
    n ⬝ᵥ y = w * (y ⬝ᵥ Q *ᵥ v) - y ⬝ᵥ S *ᵥ u ∧ y ⬝ᵥ S *ᵥ v = -(w * (y ⬝ᵥ Q *ᵥ u)) := by
  have h1 := congrArg (fun q => y ⬝ᵥ q) h.1
  have h2 := congrArg (fun q => y ⬝ᵥ q) h.2
  simp only [dotProduct_add, dotProduct_sub, dotProduct_smul, dotProduct_zero, smul_eq_mul] at h1 h2
  rw [dotProduct_comm n y]
  constructor <;> linarith

/-- the energies of two frequencies give the difference of the reactances -/
theorem difference (hS : ∀ x y : Fin m → ℝ, x ⬝ᵥ S *ᵥ y = -(y ⬝ᵥ S *ᵥ x)) (hQ : ∀ x y : Fin m → ℝ, x ⬝ᵥ Q *ᵥ y = y ⬝ᵥ Q *ᵥ x)
    {w1 w2 : ℝ} {u1 v1 u2 v2 : Fin m → ℝ} (h1 : At S Q n w1 u1 v1) (h2 : At S Q n w2 u2 v2) :
    -(n ⬝ᵥ v2) - -(n ⬝ᵥ v1) = (w2 - w1) * (u1 ⬝ᵥ Q *ᵥ u2 + v1 ⬝ᵥ Q *ᵥ v2) := by
  have a := (h1.dot v2).1
  have b := (h2.dot v1).1
  have c := (h2.dot u1).2
  have d := (h1.dot u2).2
  rw [hS u1 v2] at c
  rw [hS u2 v1] at d
  rw [hQ v2 v1] at a
  rw [hQ u2 u1] at d
  linear_combination -a + b - c + d

theorem level (hS : ∀ x y : Fin m → ℝ, x ⬝ᵥ S *ᵥ y = -(y ⬝ᵥ S *ᵥ x)) {w : ℝ} {u v : Fin m → ℝ} (h : At S Q n w u v) :
    -(n ⬝ᵥ v) = w * (u ⬝ᵥ Q *ᵥ u - v ⬝ᵥ Q *ᵥ v) := by
  have a := (h.dot v).1
  have b := (h.dot u).2
  rw [hS u v] at b
  linear_combination -a - b

/-- the matrix of the equations -/
noncomputable def mat (S Q : Matrix (Fin m) (Fin m) ℝ) (w : ℝ) : Matrix (Fin m) (Fin m) ℂ :=
  S.map Complex.ofReal + (I * (w : ℂ)) • Q.map Complex.ofReal

/-- their solution -/
noncomputable def sol (S Q : Matrix (Fin m) (Fin m) ℝ) (n : Fin m → ℝ) (w : ℝ) : Fin m → ℂ :=
  -((mat S Q w).det⁻¹ • ((mat S Q w).adjugate *ᵥ fun i => (n i : ℂ)))

theorem sol_solves {w : ℝ} (h : (mat S Q w).det ≠ 0) : mat S Q w *ᵥ sol S Q n w + (fun i => (n i : ℂ)) = 0 := by
  rw [sol, mulVec_neg, mulVec_smul, mulVec_mulVec, mul_adjugate, smul_mulVec, one_mulVec, smul_smul, inv_mul_cancel₀ h, one_smul,
    neg_add_cancel]

theorem sol_unique {w : ℝ} (h : (mat S Q w).det ≠ 0) {z : Fin m → ℂ} (hz : mat S Q w *ᵥ z + (fun i => (n i : ℂ)) = 0) :
    z = sol S Q n w := by
  have h1 : mat S Q w *ᵥ (z - sol S Q n w) = 0 := by
    rw [mulVec_sub]
    have := sol_solves (n := n) h
    rw [eq_neg_of_add_eq_zero_left hz, eq_neg_of_add_eq_zero_left this, sub_self]
  exact sub_eq_zero.1 (Matrix.eq_zero_of_mulVec_eq_zero h h1)

theorem sol_at {w : ℝ} (h : (mat S Q w).det ≠ 0) :
    At S Q n w (fun i => (sol S Q n w i).re) (fun i => (sol S Q n w i).im) := by
  have h0 := sol_solves (n := n) h
  have key : mat S Q w *ᵥ sol S Q n w = S.map Complex.ofReal *ᵥ sol S Q n w +
      (I * (w : ℂ)) • (Q.map Complex.ofReal *ᵥ sol S Q n w) := by
    rw [mat, add_mulVec, smul_mulVec]
  constructor <;> funext i
  all_goals
    have h1 := congrFun h0 i
    rw [key] at h1
    simp only [Pi.add_apply, Pi.smul_apply, Matrix.mulVec, dotProduct, Matrix.map_apply, Pi.zero_apply] at h1
  · have := congrArg Complex.re h1
    simpa [sub_eq_add_neg, Matrix.mulVec, dotProduct] using this
  · have := congrArg Complex.im h1
    simpa [Matrix.mulVec, dotProduct] using this

theorem continuous_mat : Continuous (mat S Q) := by
  have h1 : Continuous fun w : ℝ => I * (w : ℂ) := continuous_const.mul Complex.continuous_ofReal
  have h2 : Continuous fun w : ℝ => (I * (w : ℂ)) • Q.map Complex.ofReal := h1.smul continuous_const
  exact (continuous_const (y := S.map Complex.ofReal)).add h2

theorem continuousAt_sol {w : ℝ} (h : (mat S Q w).det ≠ 0) : ContinuousAt (sol S Q n) w := by
  have h1 : ContinuousAt (fun t => (mat S Q t).det⁻¹) w := ContinuousAt.inv₀ (continuous_mat.matrix_det).continuousAt h
  have h2 : ContinuousAt (fun t => (mat S Q t).adjugate *ᵥ fun i => (n i : ℂ)) w :=
    (Continuous.matrix_mulVec continuous_mat.matrix_adjugate continuous_const).continuousAt
  exact (h1.smul h2).neg

/-- the reactance -/
noncomputable def reac (S Q : Matrix (Fin m) (Fin m) ℝ) (n : Fin m → ℝ) (w : ℝ) : ℝ := -(n ⬝ᵥ fun i => (sol S Q n w i).im)

/-- the mixed energy -/
noncomputable def mixed (S Q : Matrix (Fin m) (Fin m) ℝ) (n : Fin m → ℝ) (w1 w2 : ℝ) : ℝ :=
  (fun i => (sol S Q n w1 i).re) ⬝ᵥ Q *ᵥ (fun i => (sol S Q n w2 i).re) +
    (fun i => (sol S Q n w1 i).im) ⬝ᵥ Q *ᵥ (fun i => (sol S Q n w2 i).im)

theorem continuousAt_mixed {w1 w : ℝ} (h : (mat S Q w).det ≠ 0) : ContinuousAt (mixed S Q n w1) w := by
  have hs := continuousAt_sol (n := n) h
  have hi := continuousAt_pi.1 hs
  unfold mixed
  simp only [dotProduct, Matrix.mulVec]
  refine ContinuousAt.add ?_ ?_
  all_goals
    refine tendsto_finsetSum _ fun i _ => ?_
    refine ContinuousAt.mul continuousAt_const ?_
    refine tendsto_finsetSum _ fun k _ => ?_
    refine ContinuousAt.mul continuousAt_const ?_
  · exact Complex.continuous_re.continuousAt.comp (hi k)
  · exact Complex.continuous_im.continuousAt.comp (hi k)

theorem hasDerivAt_reac (hS : ∀ x y : Fin m → ℝ, x ⬝ᵥ S *ᵥ y = -(y ⬝ᵥ S *ᵥ x)) (hQ : ∀ x y : Fin m → ℝ, x ⬝ᵥ Q *ᵥ y = y ⬝ᵥ Q *ᵥ x)
    {w : ℝ} (h : (mat S Q w).det ≠ 0) : HasDerivAt (reac S Q n) (mixed S Q n w w) w := by
  rw [hasDerivAt_iff_tendsto_slope]
  have hc : Filter.Tendsto (mixed S Q n w) (nhdsWithin w {w}ᶜ) (nhds (mixed S Q n w w)) :=
    (continuousAt_mixed h).tendsto.mono_left nhdsWithin_le_nhds
  refine hc.congr' ?_
  have hev : ∀ᶠ t in nhds w, (mat S Q t).det ≠ 0 :=
    (continuous_mat.matrix_det).continuousAt.eventually_ne h
  filter_upwards [nhdsWithin_le_nhds hev, self_mem_nhdsWithin] with t ht htw
  have hne : t - w ≠ 0 := sub_ne_zero.2 htw
  rw [slope_def_field, reac, reac, difference hS hQ (sol_at h) (sol_at ht)]
  unfold mixed
  field_simp

/-- the energies of a solution, magnetic and electric -/
noncomputable def e1 (S Q : Matrix (Fin m) (Fin m) ℝ) (n : Fin m → ℝ) (w : ℝ) : ℝ :=
  (fun i => (sol S Q n w i).re) ⬝ᵥ Q *ᵥ (fun i => (sol S Q n w i).re)
noncomputable def e2 (S Q : Matrix (Fin m) (Fin m) ℝ) (n : Fin m → ℝ) (w : ℝ) : ℝ :=
  (fun i => (sol S Q n w i).im) ⬝ᵥ Q *ᵥ (fun i => (sol S Q n w i).im)

theorem monotone_of {f f' : ℝ → ℝ} {a b : ℝ} (hab : a ≤ b) (hd : ∀ w ∈ Set.Icc a b, HasDerivAt f (f' w) w)
    (h0 : ∀ w ∈ Set.Icc a b, 0 ≤ f' w) : f a ≤ f b := by
  have hm : MonotoneOn f (Set.Icc a b) := by
    refine monotoneOn_of_deriv_nonneg (convex_Icc a b) (fun w hw => (hd w hw).continuousAt.continuousWithinAt) ?_ ?_
    · intro w hw
      exact (hd w (interior_subset hw)).differentiableAt.differentiableWithinAt
    · intro w hw
      rw [(hd w (interior_subset hw)).deriv]
      exact h0 w (interior_subset hw)
  exact hm (Set.left_mem_Icc.2 hab) (Set.right_mem_Icc.2 hab) hab

theorem foster (hS : ∀ x y : Fin m → ℝ, x ⬝ᵥ S *ᵥ y = -(y ⬝ᵥ S *ᵥ x)) (hQ : ∀ x y : Fin m → ℝ, x ⬝ᵥ Q *ᵥ y = y ⬝ᵥ Q *ᵥ x)
    (hpos : ∀ x : Fin m → ℝ, 0 ≤ x ⬝ᵥ Q *ᵥ x) {a b : ℝ} (ha : 0 < a) (hab : a ≤ b) (hr : ∀ w ∈ Set.Icc a b, (mat S Q w).det ≠ 0) :
    reac S Q n a ≤ reac S Q n b ∧ reac S Q n a / a ≤ reac S Q n b / b ∧ a * reac S Q n a ≤ b * reac S Q n b := by
  have hd : ∀ w ∈ Set.Icc a b, HasDerivAt (reac S Q n) (mixed S Q n w w) w := fun w hw => hasDerivAt_reac hS hQ (hr w hw)
  have hl : ∀ w ∈ Set.Icc a b, reac S Q n w = w * (e1 S Q n w - e2 S Q n w) := fun w hw => level hS (sol_at (hr w hw))
  have hx : ∀ w, mixed S Q n w w = e1 S Q n w + e2 S Q n w := fun w => rfl
  have h1 : ∀ w, 0 ≤ e1 S Q n w := fun w => hpos _
  have h2 : ∀ w, 0 ≤ e2 S Q n w := fun w => hpos _
  refine ⟨monotone_of hab hd fun w hw => ?_, ?_, ?_⟩
  · rw [hx]
    exact add_nonneg (h1 w) (h2 w)
  · refine monotone_of (f := fun w => reac S Q n w / w) (f' := fun w => (mixed S Q n w w * w - reac S Q n w * 1) / w ^ 2) hab
      (fun w hw => (hd w hw).div (hasDerivAt_id w) (ha.trans_le hw.1).ne') fun w hw => ?_
    have hw0 := ha.trans_le hw.1
    refine div_nonneg ?_ (sq_nonneg w)
    rw [hx, hl w hw]
    have := mul_nonneg hw0.le (h2 w)
    linarith
  · refine monotone_of (f := fun w => w * reac S Q n w) (f' := fun w => 1 * reac S Q n w + w * mixed S Q n w w) hab
      (fun w hw => (hasDerivAt_id w).mul (hd w hw)) fun w hw => ?_
    have hw0 := ha.trans_le hw.1
    rw [hx, hl w hw]
    have := mul_nonneg hw0.le (h1 w)
    linarith

end Core

/-! ### Circuits without resistors -/

section Circuit
variable {sqrt : ℝ → Option ℝ} {circ : List (Elem ℝ)} {nv m : Nat} {cmin : ℝ} {s : Sys ℝ} {D : Mat ℝ}

theorem skew (hnv : 0 < nv) (he : ∀ e ∈ circ, NodesLt nv e) (hp : ∀ e ∈ circ, TwoPole e) (hr : ∀ e ∈ circ, NoR e)
    (h : generate circ nv = .ok s) (hm : s.size = m + 1) (x y : Fin m → ℝ) :
    x ⬝ᵥ (signs m nv * reduce m s.M) *ᵥ y = -(y ⬝ᵥ (signs m nv * reduce m s.M) *ᵥ x) := by
  have hz := (rows_linear he hp h fun _ => 0).1
  have h0 : ∀ x y : Vec ℝ, (circ.map (resForm x y)).sum = 0 := by
    intro x y
    refine List.sum_eq_zero fun v hv => ?_
    obtain ⟨e, he, rfl⟩ := List.mem_map.1 hv
    have := hr e he
    cases e <;> simp_all [NoR, resForm]
  have key : ∀ x y : Fin m → ℝ, x ⬝ᵥ (signs m nv * reduce m s.M) *ᵥ y =
      brSum (fun j e => (Rlc.ext x (term e).1 - Rlc.ext x (term e).2) * Rlc.ext y (nv + j)) circ 0 -
      brSum (fun j e => Rlc.ext x (nv + j) * (Rlc.ext y (term e).1 - Rlc.ext y (term e).2)) circ 0 := by
    intro x y
    rw [form (b := (vdes circ).length) (by omega), ← hm, static_node hnv he hp h, static_branch he hp h, h0, zero_add]
  rw [key, key, neg_sub]
  congr 1 <;> exact brSum_congr _ _ _ _ fun _ _ => mul_comm _ _

theorem stored (hnv : 0 < nv) (he : ∀ e ∈ circ, NodesLt nv e) (hp : ∀ e ∈ circ, TwoPole e)
    (hm : m + 1 = nv + (vdes circ).length) (h : generateD circ nv (m + 1) cmin = .ok D) (x y : Fin m → ℝ) :
    x ⬝ᵥ (signs m nv * reduce m D) *ᵥ y =
      (circ.map (capForm (Rlc.ext x) (Rlc.ext y))).sum + cmin * ∑ r ∈ Finset.range nv, Rlc.ext x r * Rlc.ext y r +
        magForm circ nv (Rlc.ext x) (Rlc.ext y) := by
  rw [form hm]
  rw [hm] at h ⊢
  rw [dynamic_node hnv he h _ _ rfl rfl, dynamic_branch hnv he hp h _ _ rfl, sub_neg_eq_add]

theorem stored_symm (hnv : 0 < nv) (hb : Built sqrt circ) (he : ∀ e ∈ circ, NodesLt nv e) (hp : ∀ e ∈ circ, TwoPole e)
    (hm : m + 1 = nv + (vdes circ).length) (h : generateD circ nv (m + 1) cmin = .ok D) (x y : Fin m → ℝ) :
    x ⬝ᵥ (signs m nv * reduce m D) *ᵥ y = y ⬝ᵥ (signs m nv * reduce m D) *ᵥ x := by
  rw [stored hnv he hp hm h, stored hnv he hp hm h, magForm_symm hb,
    show capForm (Rlc.ext x) (Rlc.ext y) = capForm (Rlc.ext y) (Rlc.ext x) from funext (capForm_symm _ _)]
  simp only [mul_comm]

theorem stored_nonneg (hsq : ∀ v q, sqrt v = some q → q * q = v) (hnv : 0 < nv) (hb : Built sqrt circ)
    (he : ∀ e ∈ circ, NodesLt nv e) (hp : ∀ e ∈ circ, TwoPole e) (hpos : ∀ e ∈ circ, Positive e) (hlo : ∀ e ∈ circ, Loose e)
    (hc : 0 ≤ cmin) (hm : m + 1 = nv + (vdes circ).length) (h : generateD circ nv (m + 1) cmin = .ok D) (x : Fin m → ℝ) :
    0 ≤ x ⬝ᵥ (signs m nv * reduce m D) *ᵥ x := by
  rw [stored hnv he hp hm h]
  refine add_nonneg (add_nonneg (sum_nonneg' _ _ fun e hm => ?_)
    (mul_nonneg hc (Finset.sum_nonneg fun r _ => mul_self_nonneg _))) (C09_magnetic_energy hsq hb hpos hlo nv _)
  have := hpos e hm
  cases e <;> simp only [capForm, Positive] at this ⊢ <;> try exact le_refl _
  rw [mul_assoc]
  exact mul_nonneg this (mul_self_nonneg _)

theorem mat_eq (M D : Mat ℝ) (w : ℝ) :
    mat (signs m nv * reduce m M) (signs m nv * reduce m D) w = signs m nv * at' m M D (I * (w : ℂ)) := by
  ext i k
  simp only [mat, at', signs, Matrix.add_apply, Matrix.smul_apply, Matrix.map_apply, Matrix.diagonal_mul, smul_eq_mul, sgn]
  split_ifs <;> push_cast <;> ring

theorem signs_det : (signs m nv : Matrix (Fin m) (Fin m) ℂ).det ≠ 0 := by
  rw [signs, Matrix.det_diagonal]
  refine Finset.prod_ne_zero_iff.2 fun i _ => ?_
  unfold sgn
  split_ifs <;> norm_num

/-- the equations at the points of a sweep -/
theorem equations {ph : String → Option ℂ} {pts : List (ℝ × (Fin m → ℂ))} (hw : Sweep sqrt circ nv cmin 0 ph pts)
    (h : generate circ nv = .ok s) (hd : generateAC circ nv s.size cmin = .ok D) {p : ℝ × (Fin m → ℂ)} (hp : p ∈ pts) :
    s.size = m + 1 ∧ at' m s.M D (I * ((2 * Real.pi * p.1 : ℝ) : ℂ)) *ᵥ p.2 + reduceV m (genNac (circ.map (lift ph)) nv).2 = 0 := by
  obtain ⟨s', D', h1, hm, h3, o, start, stop, N, x0, ho, h4, h5, h6, hr⟩ := hw.result
  rw [h] at h1
  cases h1
  rw [hd] at h3
  cases h3
  refine ⟨hm, ?_⟩
  set c : Ac.AcIn m := ⟨reduce m s.M, reduce m D, 0, reduceV m (genNac (circ.map (lift ph)) nv).2, nv - 1, 0⟩ with hc
  rcases Ac.C120_linear ho c start stop h4.ne' h5 N h6 x0 with ⟨e, -⟩ | ⟨q, e, -, f, k⟩
  · rw [hr] at e; cases e
  rw [hr] at e
  cases e
  obtain ⟨i, hi, rfl⟩ := List.mem_iff_getElem.1 hp
  have hi' : pts[i]? = some pts[i] := List.getElem?_eq_getElem hi
  have hw : pts[i].1 = start + i * ((stop - start) / (N - 1)) := by
    have t := congrArg (·[i]?) f
    simp only [List.getElem?_map, hi', Option.map_some] at t
    have hiN : i < N := by
      have := congrArg List.length f
      simp only [List.length_map, List.length_range] at this
      omega
    rw [List.getElem?_range hiN, Option.map_some] at t
    exact Option.some.inj t
  have kk : Ac.Solves c (2 * Real.pi * (start + i * ((stop - start) / (N - 1)))) pts[i].2 := k i _ hi'
  rw [← hw] at kk
  have hY : Ac.Y c (2 * Real.pi * pts[i].1) 0 = at' m s.M D (I * ((2 * Real.pi * pts[i].1 : ℝ) : ℂ)) := by
    ext a b
    simp [Ac.Y, at', hc]
  rcases kk with ⟨-, hg⟩ | ⟨-, -, hg⟩
  · rw [← hY]
    exact hg
  · rw [← hY]
    exact hg

/-- no natural frequency of the circuit between `f1` and `f2` -/
def Regular (circ : List (Elem ℝ)) (nv m : Nat) (cmin f1 f2 : ℝ) : Prop :=
  ∀ s D, generate circ nv = .ok s → generateAC circ nv s.size cmin = .ok D → ∀ f ∈ Set.Icc f1 f2,
    (at' m s.M D (I * ((2 * Real.pi * f : ℝ) : ℂ))).det ≠ 0

/-- the immittances of a lossless circuit: the excitation is a real vector `n` times the phasor `j` of the source -/
theorem grows (hsq : ∀ v q, sqrt v = some q → q * q = v) {ph : String → Option ℂ} {pts : List (ℝ × (Fin m → ℂ))}
    (hw : Sweep sqrt circ nv cmin 0 ph pts) (hr : ∀ e ∈ circ, NoR e) (hlo : ∀ e ∈ circ, Loose e) {j : ℂ} (hj : j ≠ 0)
    {n : Fin m → ℝ} (hn : ∀ i : Fin m, (genNac (circ.map (lift ph)) nv).2 (i.val + 1) = j * (sgn nv (i.val + 1) * n i : ℝ))
    {p q : ℝ × (Fin m → ℂ)} (hp : p ∈ pts) (hq : q ∈ pts) (hpq : p.1 ≤ q.1) (hreg : Regular circ nv m cmin p.1 q.1)
    {X : (Fin m → ℂ) → ℂ} (hX : ∀ z, X z = -∑ i, (n i : ℂ) * (z i / j)) :
    (X p.2).im ≤ (X q.2).im ∧ (X p.2).im / p.1 ≤ (X q.2).im / q.1 ∧ p.1 * (X p.2).im ≤ q.1 * (X q.2).im := by
  obtain ⟨s, D, h1, hm, h3, -⟩ := hw.result
  have hd : generateD circ nv (m + 1) cmin = .ok D := by
    rw [C08_ac_same, hm] at h3
    exact h3
  have hz : m + 1 = nv + (vdes circ).length := by
    rw [← hm]
    exact (rows_linear hw.nodes hw.passive h1 fun _ => 0).1
  have hreg' : ∀ w ∈ Set.Icc (2 * Real.pi * p.1) (2 * Real.pi * q.1),
      (mat (signs m nv * reduce m s.M) (signs m nv * reduce m D) w).det ≠ 0 := by
    intro w hw'
    rw [mat_eq, Matrix.det_mul]
    refine mul_ne_zero signs_det ?_
    have h2 : (0 : ℝ) < 2 * Real.pi := by positivity
    have := hreg s D h1 h3 (w / (2 * Real.pi)) ⟨by rw [le_div_iff₀ h2, mul_comm]; exact hw'.1, by rw [div_le_iff₀ h2, mul_comm]; exact hw'.2⟩
    rwa [mul_div_cancel₀ _ h2.ne'] at this
  have hp0 : 0 < p.1 := (hw.power hp).1
  have hpi : (0 : ℝ) < 2 * Real.pi := by positivity
  have key := foster (n := n) (skew hw.nv_pos hw.nodes hw.passive hr h1 hm)
    (stored_symm hw.nv_pos hw.built hw.nodes hw.passive hz hd)
    (stored_nonneg hsq hw.nv_pos hw.built hw.nodes hw.passive hw.positive hlo hw.cmin_nonneg hz hd)
    (mul_pos hpi hp0) (mul_le_mul_of_nonneg_left hpq hpi.le) hreg'
  have pt : ∀ t ∈ pts, t.1 ∈ Set.Icc p.1 q.1 →
      reac (signs m nv * reduce m s.M) (signs m nv * reduce m D) n (2 * Real.pi * t.1) = (X t.2).im := by
    intro t ht htI
    have hdet := hreg' (2 * Real.pi * t.1) ⟨mul_le_mul_of_nonneg_left htI.1 hpi.le, mul_le_mul_of_nonneg_left htI.2 hpi.le⟩
    have heq := (equations hw h1 h3 ht).2
    have hs : (fun i => t.2 i / j) = sol (signs m nv * reduce m s.M) (signs m nv * reduce m D) n (2 * Real.pi * t.1) := by
      refine sol_unique hdet ?_
      have e1 : (fun i => t.2 i / j) = j⁻¹ • t.2 := by
        funext i
        rw [Pi.smul_apply, smul_eq_mul, div_eq_inv_mul]
      rw [e1, mat_eq, mulVec_smul, ← mulVec_mulVec, eq_neg_of_add_eq_zero_left heq]
      funext i
      simp only [Pi.add_apply, Pi.smul_apply, signs, mulVec_diagonal, Pi.neg_apply, reduceV, hn, smul_eq_mul, Pi.zero_apply]
      unfold sgn
      split_ifs <;> push_cast <;> field_simp <;> ring
    rw [reac, ← hs, hX, neg_im, Complex.im_sum, dotProduct]
    simp
  rw [pt p hp ⟨le_rfl, hpq⟩, pt q hq ⟨hpq, le_rfl⟩] at key
  obtain ⟨k1, k2, k3⟩ := key
  have hq0 := hp0.trans_le hpq
  refine ⟨k1, ?_, ?_⟩
  · rw [div_le_div_iff₀ (by positivity) (by positivity)] at k2
    rw [div_le_div_iff₀ hp0 hq0]
    refine le_of_mul_le_mul_left ?_ hpi
    linarith
  · refine le_of_mul_le_mul_left ?_ hpi
    linarith

end Circuit

section Source
variable {sqrt : ℝ → Option ℝ} {C : List (Elem ℝ)} {nv m : Nat} {cmin : ℝ} {ph : String → Option ℂ}
  {pts : List (ℝ × (Fin m → ℂ))} {id : String} {a b : Nat} {src : Src ℝ} {j u : ℂ}

theorem quiet (hs : ∀ e ∈ C, Silent ph e) : ∀ e ∈ C.map (lift ph), Quiet e := by
  intro e he
  obtain ⟨e', he', rfl⟩ := List.mem_map.1 he
  have := hs e' he'
  cases e' <;> simp_all [Silent, Stable.lift, Quiet]

/-- the entries of the excitation of one source -/
theorem entry (hnv : 0 < nv) (hs : ∀ e ∈ C, Silent ph e) {e : Elem ℝ} (he : ∀ e' ∈ C ++ [e], NodesLt nv e') {r : Nat}
    (hr : r < nv + (vdes (C ++ [e])).length) :
    (genNac ((C ++ [e]).map (lift ph)) nv).2 r = srcNode acVal (Pi.single r 1) (lift ph e) -
      brSum (srcBranch acVal nv (Pi.single r 1)) [lift ph e] (vdes C).length := by
  have h1 := drive_ac (circ := (C ++ [e]).map (lift ph)) hnv (fun e' h' => by
    obtain ⟨e0, h0, rfl⟩ := List.mem_map.1 h'
    exact lift_nodes (he e0 h0)) (Pi.single r 1)
  rw [vdes_lift] at h1
  rw [List.map_append, List.map_singleton, drive_quiet (quiet hs), vdes_lift, List.map_singleton, List.sum_singleton] at h1
  rw [← h1, Finset.sum_eq_single r]
  · simp
  · intro k _ hk
    simp [hk]
  · intro h
    exact absurd (Finset.mem_range.2 hr) h

theorem ext_eq (z : Fin m → ℂ) {k : Nat} (hk : k < m + 1) : ∑ i : Fin m, (if i.val + 1 = k then (1 : ℂ) else 0) * z i = Rlc.ext z k := by
  cases k with
  | zero => simp [Rlc.ext]
  | succ k =>
    have hk' : k < m := by omega
    rw [Finset.sum_eq_single (⟨k, hk'⟩ : Fin m)]
    · simp [Rlc.ext, hk']
    · intro i _ hi
      rw [if_neg fun h => hi (Fin.ext (by simpa using h)), zero_mul]
    · simp

theorem size_of {circ : List (Elem ℝ)} (h : Sweep sqrt circ nv cmin 0 ph pts) : m + 1 = nv + (vdes circ).length := by
  obtain ⟨s, D, h1, hm, -⟩ := h.result
  rw [← hm]
  exact (rows_linear h.nodes h.passive h1 fun _ => 0).1

theorem all_last {P : Elem ℝ → Prop} {e : Elem ℝ} (h : ∀ e ∈ C, P e) (h' : P e) : ∀ e' ∈ C ++ [e], P e' := by
  intro e' he
  rcases List.mem_append.1 he with he | he
  · exact h e' he
  · rw [List.mem_singleton.1 he]
    exact h'

/-- C213: the reactance of a circuit without resistors increases with the frequency between two of its natural frequencies; so do
the reactance divided by the frequency (it does not grow slower than that of an inductor) and the reactance times the frequency. -/
theorem C213_reactance (hsq : ∀ v q, sqrt v = some q → q * q = v) (h : Sweep sqrt (C ++ [.I id a b src]) nv cmin 0 ph pts)
    (hs : ∀ e ∈ C, Silent ph e) (hj : ph id = some j) (h0 : j ≠ 0) (hr : ∀ e ∈ C, NoR e) (hlo : ∀ e ∈ C, Loose e)
    {p q : ℝ × (Fin m → ℂ)} (hp : p ∈ pts) (hq : q ∈ pts) (hpq : p.1 ≤ q.1)
    (hreg : Regular (C ++ [.I id a b src]) nv m cmin p.1 q.1) :
    (impedance (Rlc.ext p.2) a b j).im ≤ (impedance (Rlc.ext q.2) a b j).im ∧
    (impedance (Rlc.ext p.2) a b j).im / p.1 ≤ (impedance (Rlc.ext q.2) a b j).im / q.1 ∧
    p.1 * (impedance (Rlc.ext p.2) a b j).im ≤ q.1 * (impedance (Rlc.ext q.2) a b j).im := by
  have hz := size_of h
  have hab : a < nv ∧ b < nv := (h.nodes (.I id a b src) (by simp)).term_lt' h.nv_pos
  refine grows hsq h (all_last hr trivial) (all_last hlo trivial) h0
    (n := fun i => (if i.val + 1 = a then 1 else 0) - (if i.val + 1 = b then 1 else 0)) (fun i => ?_) hp hq hpq hreg
    (X := fun z => impedance (Rlc.ext z) a b j) fun z => ?_
  · rw [entry h.nv_pos hs h.nodes (by have := i.isLt; omega)]
    simp only [Stable.lift, srcNode, srcBranch, brSum, Elem.vde, acVal, hj, Option.getD_some, Bool.false_eq_true, if_false, add_zero,
      sub_zero, Pi.single_apply]
    unfold sgn
    congr 1
    have ea : (if a = i.val + 1 then (1 : ℂ) else 0) = if i.val + 1 = a then 1 else 0 := if_congr eq_comm rfl rfl
    have eb : (if b = i.val + 1 then (1 : ℂ) else 0) = if i.val + 1 = b then 1 else 0 := if_congr eq_comm rfl rfl
    rw [ea, eb]
    by_cases hlt : i.val + 1 < nv
    · rw [if_pos hlt, one_mul]
      split_ifs <;> simp
    · have na : ¬ i.val + 1 = a := by omega
      have nb : ¬ i.val + 1 = b := by omega
      simp [na, nb]
  · have e1 := ext_eq z (k := a) (by omega)
    have e2 := ext_eq z (k := b) (by omega)
    rw [impedance, ← e1, ← e2, ← Finset.sum_sub_distrib, Finset.sum_div, ← Finset.sum_neg_distrib]
    refine Finset.sum_congr rfl fun i _ => ?_
    split_ifs <;> push_cast <;> ring

/-- C213: the same for the susceptance seen by a voltage source. -/
theorem C213_susceptance (hsq : ∀ v q, sqrt v = some q → q * q = v) (h : Sweep sqrt (C ++ [.V id a b src]) nv cmin 0 ph pts)
    (hs : ∀ e ∈ C, Silent ph e) (hu : ph id = some u) (h0 : u ≠ 0) (hr : ∀ e ∈ C, NoR e) (hlo : ∀ e ∈ C, Loose e)
    {p q : ℝ × (Fin m → ℂ)} (hp : p ∈ pts) (hq : q ∈ pts) (hpq : p.1 ≤ q.1)
    (hreg : Regular (C ++ [.V id a b src]) nv m cmin p.1 q.1) :
    (admittance (Rlc.ext p.2) (nv + (vdes C).length) u).im ≤ (admittance (Rlc.ext q.2) (nv + (vdes C).length) u).im ∧
    (admittance (Rlc.ext p.2) (nv + (vdes C).length) u).im / p.1 ≤ (admittance (Rlc.ext q.2) (nv + (vdes C).length) u).im / q.1 ∧
    p.1 * (admittance (Rlc.ext p.2) (nv + (vdes C).length) u).im ≤ q.1 * (admittance (Rlc.ext q.2) (nv + (vdes C).length) u).im := by
  have hz := size_of h
  have hv : (vdes (C ++ [Elem.V id a b src])).length = (vdes C).length + 1 := by
    rw [vdes, List.filter_append, List.length_append]
    rfl
  refine grows hsq h (all_last hr trivial) (all_last hlo trivial) h0
    (n := fun i => if i.val + 1 = nv + (vdes C).length then 1 else 0) (fun i => ?_) hp hq hpq hreg
    (X := fun z => admittance (Rlc.ext z) (nv + (vdes C).length) u) fun z => ?_
  · rw [entry h.nv_pos hs h.nodes (by have := i.isLt; omega)]
    simp only [Stable.lift, srcNode, srcBranch, brSum, Elem.vde, acVal, hu, Option.getD_some, if_true, add_zero, zero_sub,
      Pi.single_apply]
    unfold sgn
    by_cases hk : i.val + 1 = nv + (vdes C).length
    · rw [if_pos hk.symm, if_pos hk, if_neg (by omega)]
      simp
    · rw [if_neg (fun h => hk h.symm), if_neg hk]
      simp
  · have e1 := ext_eq z (k := nv + (vdes C).length) (by omega)
    rw [admittance, ← e1, neg_div, Finset.sum_div]
    congr 1
    refine Finset.sum_congr rfl fun i _ => ?_
    split_ifs <;> push_cast <;> ring

end Source

/-- a capacitor in parallel with an inductor -/
def tank : List (Elem ℝ) := [.C "C1" 1 0 1 none, .L "L1" 1 0 1 none []]

/-- three points of its sweep above its resonance: the hypotheses are met -/
example : ∃ pts : List (ℝ × (Fin 2 → ℂ)), pts.length = 3 ∧
    Sweep (fun _ => none) (tank ++ [.I "I1" 0 1 { dc := some 0 }]) 2 0 0 (fun s => if s = "I1" then some 1 else none) pts ∧
    ∀ p ∈ pts, ∀ q ∈ pts, p.1 ≤ q.1 → (impedance (Rlc.ext p.2) 0 1 1).im ≤ (impedance (Rlc.ext q.2) 0 1 1).im := by
  have hsil : ∀ e ∈ tank, Silent (fun s => if s = "I1" then some 1 else none) e := by simp [tank, Silent]
  have hdet : ∀ f : ℝ, 1 ≤ f → ((2 * Real.pi * f : ℝ) : ℂ) ^ 2 ≠ 1 := by
    intro f hf h
    have : (2 * Real.pi * f) ^ 2 = 1 := by exact_mod_cast h
    have h3 := Real.pi_gt_three
    have h4 : 1 < 2 * Real.pi * f := by nlinarith
    nlinarith
  obtain ⟨s, D, h1, h2, h3, hreg⟩ : ∃ s D, generate (tank ++ [.I "I1" 0 1 { dc := some 0 }]) 2 = .ok s ∧ s.size = 2 + 1 ∧
      generateAC (tank ++ [.I "I1" 0 1 { dc := some 0 }]) 2 s.size 0 = .ok D ∧
      ∀ f : ℝ, 1 ≤ f → (at' 2 s.M D (I * ((2 * Real.pi * f : ℝ) : ℂ))).det ≠ 0 := by
    simp only [tank, List.cons_append, List.nil_append]
    refine ⟨_, _, rfl, rfl, rfl, ?_⟩
    intro f hf h
    rw [Matrix.det_fin_two] at h
    refine hdet f hf ?_
    simp [at', reduce, Mat.add, Mat.put, Elem.vde] at h
    push_cast
    linear_combination h + (2 * Real.pi * f : ℂ) ^ 2 * Complex.I_mul_I
  rcases Ac.C120_linear (o := ⟨⟨true, true, true, 27⟩, false⟩) ⟨rfl, rfl, rfl, by decide, rfl⟩
    (⟨reduce 2 s.M, reduce 2 D, 0, reduceV 2 (genNac ((tank ++ [Elem.I "I1" 0 1 { dc := some (0 : ℝ) }]).map
      (Stable.lift fun s => if s = "I1" then some 1 else none)) 2).2, 2 - 1, 0⟩) 1 3 (by norm_num)
    (by norm_num) 3 (by norm_num) 0 with ⟨-, i, -, -, h⟩ | ⟨pts, h4, -, h5, -⟩
  · refine absurd ?_ (hreg (1 + i * ((3 - 1) / (3 - 1))) ?_)
    · rw [← h]
      congr 1
      ext a b
      simp [Ac.Y, at']
    · have : (0 : ℝ) ≤ i := Nat.cast_nonneg i
      norm_num
  · have hsw : Sweep (fun _ => none) (tank ++ [.I "I1" 0 1 { dc := some 0 }]) 2 0 0
        (fun s => if s = "I1" then some 1 else none) pts :=
      ⟨by decide, Built.add (c := tank) (Built.add (c := [.C "C1" 1 0 1 none]) (Built.add Built.nil (by simp) (by simp) (by simp [Elem.vde])) (by simp) (by simp) (by simp [Elem.vde])) (by simp) (by simp) (by simp [Elem.vde]), by simp [tank, NodesLt], by simp [tank, TwoPole], by simp [tank, Positive], le_rfl, le_rfl,
        s, D, h1, h2, h3, ⟨⟨true, true, true, 27⟩, false⟩, 1, 3, 3, 0, ⟨rfl, rfl, rfl, by decide, rfl⟩, by norm_num, by norm_num, by norm_num, h4⟩
    refine ⟨pts, ?_, hsw, fun p hp q hq hpq => ?_⟩
    · have := congrArg List.length h5
      simpa using this
    · refine (C213_reactance (by simp) hsw hsil (by simp) one_ne_zero (by simp [tank, NoR]) (by simp [tank, Loose]) hp hq hpq ?_).1
      intro s' D' g1 g2 f hf
      rw [h1] at g1
      cases g1
      rw [h3] at g2
      cases g2
      refine hreg f (le_trans ?_ hf.1)
      have : p.1 ∈ pts.map Prod.fst := List.mem_map_of_mem hp
      rw [h5] at this
      obtain ⟨i, -, hi⟩ := List.mem_map.1 this
      rw [← hi]
      have : (0 : ℝ) ≤ i := Nat.cast_nonneg i
      norm_num

end Verif.Foster
