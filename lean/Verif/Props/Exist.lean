import Mathlib.Topology.Algebra.Order.LiminfLimsup
import Mathlib.LinearAlgebra.Matrix.NonsingularInverse
import Mathlib.Analysis.Calculus.LocalExtr.Basic
import Mathlib.Analysis.Calculus.Deriv.Mul
import Mathlib.Analysis.Calculus.Deriv.Pow
import Mathlib.Analysis.Normed.Module.FiniteDimension
import Mathlib.Data.Matrix.Mul
import Mathlib.MeasureTheory.Integral.IntervalIntegral.FundThmCalculus
import Mathlib.Topology.MetricSpace.Lipschitz
import Verif.Props.Accuracy

/-!
Property C192: circuits with devices whose currents grow continuously have an operating point.

The point minimises the content of the circuit, the sum of the integrals of the currents of resistors, devices and
current sources over their voltages, among the node voltages that satisfy the equations of the voltage sources and the
inductors. The currents of these branches are the multipliers.
-/

namespace Verif.Exist
open Matrix Topology

variable {m : Nat}

theorem dot_le (a w : Fin m → ℝ) : |a ⬝ᵥ w| ≤ (∑ i, |a i|) * ‖w‖ := by
  rw [dotProduct, Finset.sum_mul]
  refine (Finset.abs_sum_le_sum_abs _ _).trans (Finset.sum_le_sum fun i _ => ?_)
  rw [abs_mul]
  exact mul_le_mul_of_nonneg_left (norm_le_pi_norm w i) (abs_nonneg _)

/-- a system of resistors and branches: symmetric, without entries between branches, passive at the nodes -/
structure Network (B : Fin m → Prop) (P : Matrix (Fin m) (Fin m) ℝ) : Prop where
  sym : Pᵀ = P
  bb : ∀ i j, B i → B j → P i j = 0
  psd : ∀ u : Fin m → ℝ, (∀ i, B i → u i = 0) → 0 ≤ u ⬝ᵥ P *ᵥ u
  det : P.det ≠ 0

namespace Network
variable {B : Fin m → Prop} {P : Matrix (Fin m) (Fin m) ℝ}

/-- node vectors that leave the branch equations alone -/
def Move (B : Fin m → Prop) (P : Matrix (Fin m) (Fin m) ℝ) (w : Fin m → ℝ) : Prop :=
  (∀ i, B i → w i = 0) ∧ ∀ i, B i → (P *ᵥ w) i = 0

theorem swap (h : Network B P) (u v : Fin m → ℝ) : u ⬝ᵥ P *ᵥ v = v ⬝ᵥ P *ᵥ u := by
  rw [dotProduct_mulVec, ← mulVec_transpose, h.sym, dotProduct_comm]

theorem regular (h : Network B P) {w : Fin m → ℝ} (hw : P *ᵥ w = 0) : w = 0 :=
  Matrix.eq_zero_of_mulVec_eq_zero h.det hw

theorem solve (h : Network B P) (b : Fin m → ℝ) : ∃ y, P *ᵥ y = b :=
  ⟨P⁻¹ *ᵥ b, by rw [mulVec_mulVec, mul_nonsing_inv _ (Ne.isUnit h.det), one_mulVec]⟩

theorem definite (h : Network B P) {w : Fin m → ℝ} (hw : Move B P w) (h0 : w ⬝ᵥ P *ᵥ w = 0) : w = 0 := by
  classical
  refine h.regular ?_
  funext i
  rw [Pi.zero_apply]
  by_cases hi : B i
  · exact hw.2 i hi
  · set v : Fin m → ℝ := Pi.single i 1 with hv
    have hvB : ∀ j, B j → v j = 0 := fun j hj => by
      rw [hv, Pi.single_apply, if_neg]
      rintro rfl
      exact hi hj
    have key : ∀ t : ℝ, 0 ≤ 2 * t * (P *ᵥ w) i + t ^ 2 * (v ⬝ᵥ P *ᵥ v) := fun t => by
      have := h.psd (w + t • v) fun j hj => by rw [Pi.add_apply, Pi.smul_apply, hw.1 j hj, hvB j hj, smul_zero, add_zero]
      rw [mulVec_add, mulVec_smul, add_dotProduct, dotProduct_add, dotProduct_add, h0, smul_dotProduct, smul_dotProduct,
        dotProduct_smul, dotProduct_smul, h.swap w v] at this
      have e : v ⬝ᵥ P *ᵥ w = (P *ᵥ w) i := by rw [hv, single_dotProduct, one_mul]
      rw [e] at this
      simp only [smul_eq_mul] at this
      linarith
    have hq := h.psd v hvB
    by_contra hne
    set a := (P *ᵥ w) i
    set q := v ⬝ᵥ P *ᵥ v
    have h1 := key (-a / (q + 1))
    have h2 : 2 * (-a / (q + 1)) * a + (-a / (q + 1)) ^ 2 * q = -(a ^ 2) * (q + 2) / (q + 1) ^ 2 := by
      field_simp
      ring
    rw [h2] at h1
    have h3 : 0 < a ^ 2 := by positivity
    have h4 : -(a ^ 2) * (q + 2) / (q + 1) ^ 2 < 0 := by
      apply div_neg_of_neg_of_pos
      · nlinarith
      · positivity
    linarith

theorem move_closed (B : Fin m → Prop) (P : Matrix (Fin m) (Fin m) ℝ) : IsClosed {w | Move B P w} := by
  have h1 : ∀ i, IsClosed {w : Fin m → ℝ | B i → w i = 0} := fun i => by
    by_cases hi : B i
    · simp only [hi, true_imp_iff]
      exact isClosed_eq (continuous_apply i) continuous_const
    · simp [hi]
  have h2 : ∀ i, IsClosed {w : Fin m → ℝ | B i → (P *ᵥ w) i = 0} := fun i => by
    by_cases hi : B i
    · simp only [hi, true_imp_iff]
      exact isClosed_eq ((continuous_apply i).comp (Continuous.matrix_mulVec continuous_const continuous_id)) continuous_const
    · simp [hi]
  have e : {w | Move B P w} = (⋂ i, {w : Fin m → ℝ | B i → w i = 0}) ∩ ⋂ i, {w : Fin m → ℝ | B i → (P *ᵥ w) i = 0} := by
    ext w
    simp [Move]
  rw [e]
  exact (isClosed_iInter h1).inter (isClosed_iInter h2)

theorem quad_continuous (P : Matrix (Fin m) (Fin m) ℝ) : Continuous fun w : Fin m → ℝ => w ⬝ᵥ P *ᵥ w :=
  Continuous.dotProduct continuous_id (Continuous.matrix_mulVec continuous_const continuous_id)

theorem strong (h : Network B P) : ∃ l > 0, ∀ w, Move B P w → l * ‖w‖ ^ 2 ≤ w ⬝ᵥ P *ᵥ w := by
  have hc : IsCompact ({w | Move B P w} ∩ Metric.sphere 0 1) := (isCompact_sphere (0 : Fin m → ℝ) 1).inter_left (move_closed B P)
  have scale : ∀ w, Move B P w → w ≠ 0 → Move B P (‖w‖⁻¹ • w) ∧ ‖(‖w‖⁻¹ • w)‖ = 1 := fun w hw h0 => by
    refine ⟨⟨fun i hi => ?_, fun i hi => ?_⟩, ?_⟩
    · rw [Pi.smul_apply, hw.1 i hi, smul_zero]
    · rw [mulVec_smul, Pi.smul_apply, hw.2 i hi, smul_zero]
    · rw [norm_smul, norm_inv, norm_norm, inv_mul_cancel₀ (norm_ne_zero_iff.2 h0)]
  by_cases hne : ({w | Move B P w} ∩ Metric.sphere 0 1).Nonempty
  · obtain ⟨z, hz, hmin⟩ := hc.exists_isMinOn hne (quad_continuous P).continuousOn
    have hz0 : z ≠ 0 := fun h0 => by
      have := hz.2
      rw [h0] at this
      simp at this
    have hpos : 0 < z ⬝ᵥ P *ᵥ z := lt_of_le_of_ne (h.psd z hz.1.1) fun e => hz0 (h.definite hz.1 e.symm)
    refine ⟨_, hpos, fun w hw => ?_⟩
    by_cases h0 : w = 0
    · simp [h0]
    · obtain ⟨s1, s2⟩ := scale w hw h0
      have := hmin (⟨s1, by simpa using s2⟩ : _ ∈ {w | Move B P w} ∩ Metric.sphere (0 : Fin m → ℝ) 1)
      simp only [Set.mem_ofPred_eq, mulVec_smul, smul_dotProduct, dotProduct_smul, smul_eq_mul] at this
      have hn : 0 < ‖w‖ := norm_pos_iff.2 h0
      have h5 := mul_le_mul_of_nonneg_right this (sq_nonneg ‖w‖)
      refine h5.trans (le_of_eq ?_)
      field_simp
  · refine ⟨1, one_pos, fun w hw => ?_⟩
    by_cases h0 : w = 0
    · simp [h0]
    · obtain ⟨s1, s2⟩ := scale w hw h0
      exact absurd ⟨_, s1, by simpa using s2⟩ hne

/-- the currents of devices: the gradient of a function that grows at least linearly -/
structure Content (B : Fin m → Prop) (T : (Fin m → ℝ) → Fin m → ℝ) (Ψ : (Fin m → ℝ) → ℝ) : Prop where
  cont : Continuous Ψ
  grad : ∀ u w : Fin m → ℝ, HasDerivAt (fun t : ℝ => Ψ (u + t • w)) (w ⬝ᵥ T u) 0
  low : ∃ c : Fin m → ℝ, ∀ u, c ⬝ᵥ u ≤ Ψ u
  nodes : ∀ u i, B i → T u i = 0
  only : ∀ u v, (∀ i, ¬ B i → u i = v i) → T u = T v

theorem exists_point (h : Network B P) (n : Fin m → ℝ) {T : (Fin m → ℝ) → Fin m → ℝ} {Ψ : (Fin m → ℝ) → ℝ}
    (hT : Content B T Ψ) : ∃ x, P *ᵥ x + n + T x = 0 := by
  classical
  -- the node part
  let nd : (Fin m → ℝ) → Fin m → ℝ := fun y i => if B i then 0 else y i
  let br : (Fin m → ℝ) → Fin m → ℝ := fun y i => if B i then y i else 0
  have hnd : ∀ y, y = nd y + br y := fun y => by funext i; by_cases hi : B i <;> simp [nd, br, hi]
  have pbr : ∀ y i, B i → (P *ᵥ br y) i = 0 := fun y i hi => by
    rw [mulVec, dotProduct]
    refine Finset.sum_eq_zero fun j _ => ?_
    by_cases hj : B j
    · rw [h.bb i j hi hj, zero_mul]
    · simp [br, hj]
  have prow : ∀ y i, B i → (P *ᵥ y) i = (P *ᵥ nd y) i := fun y i hi => by
    conv_lhs => rw [hnd y]
    rw [mulVec_add, Pi.add_apply, pbr y i hi, add_zero]
  -- the set of the node vectors that fit the branch equations
  let S : Set (Fin m → ℝ) := {u | (∀ i, B i → u i = 0) ∧ ∀ i, B i → (P *ᵥ u) i + n i = 0}
  obtain ⟨y0, hy0⟩ := h.solve (-n)
  set u0 := nd y0 with hu0
  have hu0S : u0 ∈ S := ⟨fun i hi => by simp [hu0, nd, hi], fun i hi => by
    rw [← prow y0 i hi, hy0, Pi.neg_apply, neg_add_cancel]⟩
  have hmove : ∀ u ∈ S, Move B P (u - u0) := fun u hu => ⟨fun i hi => by
    rw [Pi.sub_apply, hu.1 i hi, hu0S.1 i hi, sub_zero], fun i hi => by
    have a := hu.2 i hi
    have b := hu0S.2 i hi
    rw [mulVec_sub, Pi.sub_apply]
    linarith⟩
  have hS : IsClosed S := by
    have : S = (fun u => u - u0) ⁻¹' {w | Move B P w} := by
      ext u
      refine ⟨hmove u, fun (hw : Move B P (u - u0)) => ⟨fun i hi => ?_, fun i hi => ?_⟩⟩
      · have := hw.1 i hi
        rw [Pi.sub_apply, hu0S.1 i hi, sub_zero] at this
        exact this
      · have := hw.2 i hi
        rw [mulVec_sub, Pi.sub_apply] at this
        have b := hu0S.2 i hi
        linarith
    rw [this]
    exact (move_closed B P).preimage (continuous_id.sub continuous_const)
  -- the function to be minimised
  let F : (Fin m → ℝ) → ℝ := fun u => (u ⬝ᵥ P *ᵥ u) / 2 + n ⬝ᵥ u + Ψ u
  have hF : Continuous F := (((quad_continuous P).div_const 2).add (Continuous.dotProduct continuous_const continuous_id)).add hT.cont
  obtain ⟨l, hl, hst⟩ := h.strong
  obtain ⟨c, hc⟩ := hT.low
  have low : ∃ C1 ≥ 0, ∃ C2, ∀ u ∈ S, l / 2 * ‖u - u0‖ ^ 2 - C1 * ‖u - u0‖ - C2 ≤ F u := by
    set a := P *ᵥ u0 + n + c with ha
    refine ⟨∑ i, |a i|, Finset.sum_nonneg fun i _ => abs_nonneg _, -((u0 ⬝ᵥ P *ᵥ u0) / 2 + n ⬝ᵥ u0 + c ⬝ᵥ u0), fun u hu => ?_⟩
    obtain ⟨w, rfl⟩ : ∃ w, u = u0 + w := ⟨u - u0, by abel⟩
    rw [add_sub_cancel_left]
    have hw : Move B P w := by have := hmove _ hu; rwa [add_sub_cancel_left] at this
    have e1 := hst w hw
    have e2 := hc (u0 + w)
    have e3 := abs_le.1 (dot_le a w)
    have e4 : a ⬝ᵥ w = w ⬝ᵥ P *ᵥ u0 + n ⬝ᵥ w + c ⬝ᵥ w := by
      rw [ha, add_dotProduct, add_dotProduct, dotProduct_comm (P *ᵥ u0)]
    have e5 : (u0 + w) ⬝ᵥ P *ᵥ (u0 + w) = u0 ⬝ᵥ P *ᵥ u0 + 2 * (w ⬝ᵥ P *ᵥ u0) + w ⬝ᵥ P *ᵥ w := by
      rw [mulVec_add, add_dotProduct, dotProduct_add, dotProduct_add, h.swap u0 w]
      ring
    simp only [F]
    rw [e5, dotProduct_add]
    rw [dotProduct_add] at e2
    have := e3.1
    rw [e4] at this
    linarith
  have coer : ∀ᶠ u in Filter.cocompact (Fin m → ℝ) ⊓ Filter.principal S, F u0 ≤ F u := by
    obtain ⟨C1, h1, C2, hlow⟩ := low
    set R := max 1 ((C1 + |C2| + |F u0|) * 2 / l) with hR
    rw [Filter.eventually_inf_principal]
    have hb : ∀ᶠ u in Filter.cocompact (Fin m → ℝ), u ∉ Metric.closedBall u0 R :=
      (isCompact_closedBall u0 R).compl_mem_cocompact
    filter_upwards [hb] with u hu huS
    rw [Metric.mem_closedBall, not_le, dist_eq_norm] at hu
    have := hlow u huS
    set r := ‖u - u0‖
    have r1 : 1 < r := lt_of_le_of_lt (le_max_left _ _) hu
    have r2 : (C1 + |C2| + |F u0|) * 2 / l < r := lt_of_le_of_lt (le_max_right _ _) hu
    rw [div_lt_iff₀ hl] at r2
    have s1 := abs_nonneg C2
    have s2 := abs_nonneg (F u0)
    have s3 := le_abs_self C2
    have s4 := le_abs_self (F u0)
    nlinarith
  obtain ⟨us, huS, hmin⟩ := hF.continuousOn.exists_isMinOn' hS hu0S coer
  set ρ := P *ᵥ us + n + T us with hρ
  have ρb : ∀ i, B i → ρ i = 0 := fun i hi => by
    rw [hρ, Pi.add_apply, Pi.add_apply, huS.2 i hi, hT.nodes us i hi, add_zero]
  have ρw : ∀ w, Move B P w → w ⬝ᵥ ρ = 0 := fun w hw => by
    have hin : ∀ t : ℝ, us + t • w ∈ S := fun t => ⟨fun i hi => by
      rw [Pi.add_apply, Pi.smul_apply, huS.1 i hi, hw.1 i hi, smul_zero, add_zero], fun i hi => by
      rw [mulVec_add, mulVec_smul, Pi.add_apply, Pi.smul_apply, hw.2 i hi, smul_zero, add_zero]
      exact huS.2 i hi⟩
    have hloc : IsLocalMin (fun t : ℝ => F (us + t • w)) 0 := Filter.Eventually.of_forall fun t => by
      have := hmin (hin t)
      simpa using this
    have hq : HasDerivAt (fun t : ℝ => ((us + t • w) ⬝ᵥ P *ᵥ (us + t • w)) / 2) (w ⬝ᵥ P *ᵥ us) 0 := by
      have e : (fun t : ℝ => ((us + t • w) ⬝ᵥ P *ᵥ (us + t • w)) / 2) =
          fun t => (us ⬝ᵥ P *ᵥ us) / 2 + t * (w ⬝ᵥ P *ᵥ us) + t ^ 2 * ((w ⬝ᵥ P *ᵥ w) / 2) := by
        funext t
        rw [mulVec_add, mulVec_smul, add_dotProduct, dotProduct_add, dotProduct_add, smul_dotProduct, smul_dotProduct,
          dotProduct_smul, dotProduct_smul, h.swap us w]
        simp only [smul_eq_mul]
        ring
      rw [e]
      have d1 : HasDerivAt (fun t : ℝ => (us ⬝ᵥ P *ᵥ us) / 2 + t * (w ⬝ᵥ P *ᵥ us)) (1 * (w ⬝ᵥ P *ᵥ us)) 0 :=
        ((hasDerivAt_id (0 : ℝ)).mul_const _).const_add _
      have d2 : HasDerivAt (fun t : ℝ => t ^ 2 * ((w ⬝ᵥ P *ᵥ w) / 2)) ((2 * (0 : ℝ) ^ 1 * 1) * ((w ⬝ᵥ P *ᵥ w) / 2)) 0 :=
        ((hasDerivAt_id (0 : ℝ)).pow 2).mul_const _
      refine (d1.add d2).congr_deriv ?_
      ring
    have hn : HasDerivAt (fun t : ℝ => n ⬝ᵥ (us + t • w)) (n ⬝ᵥ w) 0 := by
      have e : (fun t : ℝ => n ⬝ᵥ (us + t • w)) = fun t => n ⬝ᵥ us + t * (n ⬝ᵥ w) := by
        funext t
        rw [dotProduct_add, dotProduct_smul, smul_eq_mul]
      rw [e]
      have d1 : HasDerivAt (fun t : ℝ => n ⬝ᵥ us + t * (n ⬝ᵥ w)) (1 * (n ⬝ᵥ w)) 0 :=
        ((hasDerivAt_id (0 : ℝ)).mul_const _).const_add _
      rwa [one_mul] at d1
    have := hloc.hasDerivAt_eq_zero ((hq.add hn).add (hT.grad us w))
    rw [hρ, dotProduct_add, dotProduct_add, dotProduct_comm w n]
    exact this
  obtain ⟨y, hy⟩ := h.solve (-ρ)
  have hu' : Move B P (nd y) := ⟨fun i hi => by simp [nd, hi], fun i hi => by
    rw [← prow y i hi, hy, Pi.neg_apply, ρb i hi, neg_zero]⟩
  have hz : nd y ⬝ᵥ P *ᵥ nd y = 0 := by
    have a : nd y ⬝ᵥ P *ᵥ y = 0 := by rw [hy, dotProduct_neg, ρw _ hu', neg_zero]
    have b : nd y ⬝ᵥ P *ᵥ br y = 0 := by
      rw [h.swap, dotProduct]
      refine Finset.sum_eq_zero fun i _ => ?_
      by_cases hi : B i
      · rw [hu'.2 i hi, mul_zero]
      · simp [br, hi]
    have : nd y ⬝ᵥ P *ᵥ y = nd y ⬝ᵥ P *ᵥ nd y + nd y ⬝ᵥ P *ᵥ br y := by
      conv_lhs => rw [show P *ᵥ y = P *ᵥ nd y + P *ᵥ br y by rw [← mulVec_add, ← hnd]]
      rw [dotProduct_add]
    linarith
  have h0 := h.definite hu' hz
  refine ⟨us + y, ?_⟩
  have hTT : T (us + y) = T us := hT.only _ _ fun i hi => by
    have := congrFun h0 i
    simp only [nd, hi, if_false, Pi.zero_apply] at this
    rw [Pi.add_apply, this, add_zero]
  rw [hTT, mulVec_add, hy]
  rw [hρ]
  abel

end Network
/-! ### The circuits -/

section Circuit
open Verif.Mna Verif.Circuit Verif.Devices Verif.Recip Verif.Rlc

/-- the form of the matrix of the operating point -/
theorem form {m nv : Nat} {circ : List (Elem ℝ)} {s : Sys ℝ} {g : ℝ} (hnv : 0 < nv)
    (he : ∀ e ∈ circ, NodesLt nv e) (hp : ∀ e ∈ circ, Devices.Part e) (h : generate circ nv = .ok s) (hm : s.size = m + 1)
    (u v : Fin m → ℝ) : u ⬝ᵥ (reduce m s.M + Op.gminMat (nv - 1) g) *ᵥ v =
      ((lin circ).map (resForm (Rlc.ext u) (Rlc.ext v))).sum + brSum (cross nv (Rlc.ext u) (Rlc.ext v)) (lin circ) 0 +
      ∑ r ∈ Finset.range (m + 1), if r < nv then g * (Rlc.ext u r * Rlc.ext v r) else 0 := by
  rw [generate_lin hp] at h
  have hl : ∀ e ∈ lin circ, NodesLt nv e := fun e hm => he e (List.mem_filter.1 hm).1
  rw [dot_reduce u _ (fun r => mulVec (m + 1) s.M (Rlc.ext v) r + if r < nv then g * Rlc.ext v r else 0) fun i => by
    have ex : Rlc.ext v (i.val + 1) = v i := by simp [Rlc.ext, i.isLt]
    rw [Matrix.add_mulVec, Pi.add_apply, reduce_row, Op.gminMat, Matrix.mulVec_diagonal, ex]
    by_cases hc : i.val < nv - 1
    · rw [if_pos hc, if_pos (by omega)]
    · rw [if_neg hc, if_neg (by omega), zero_mul]]
  simp only [mul_add, Finset.sum_add_distrib]
  have := static_bil hnv hl (lin_two hp) h (Rlc.ext u) (Rlc.ext v)
  rw [hm] at this
  rw [this]
  congr 1
  refine Finset.sum_congr rfl fun r _ => ?_
  split_ifs <;> ring

theorem ext_high {m nv : Nat} {u : Fin m → ℝ} (hu : ∀ i : Fin m, nv ≤ i.val + 1 → u i = 0) {r : Nat} (hr : nv ≤ r) :
    Rlc.ext u r = 0 := by
  cases r with
  | zero => rfl
  | succ r =>
    by_cases h : r < m
    · simpa [Rlc.ext, h] using hu ⟨r, h⟩ hr
    · simp [Rlc.ext, h]

theorem ext_low {m nv : Nat} {u : Fin m → ℝ} (hu : ∀ i : Fin m, i.val + 1 < nv → u i = 0) {r : Nat} (hr : r < nv) :
    Rlc.ext u r = 0 := by
  cases r with
  | zero => rfl
  | succ r =>
    by_cases h : r < m
    · simpa [Rlc.ext, h] using hu ⟨r, h⟩ hr
    · simp [Rlc.ext, h]

theorem network {m nv : Nat} {circ : List (Elem ℝ)} {s : Sys ℝ} {g : ℝ} (hnv : 0 < nv) (hg : 0 ≤ g)
    (he : ∀ e ∈ circ, NodesLt nv e) (hp : ∀ e ∈ circ, Devices.Part e) (hpos : ∀ e ∈ circ, Positive e)
    (h : generate circ nv = .ok s) (hm : s.size = m + 1)
    (hdet : (reduce m s.M + Op.gminMat (m := m) (nv - 1) g).det ≠ 0) :
    Network (fun i : Fin m => nv ≤ i.val + 1) (reduce m s.M + Op.gminMat (nv - 1) g) := by
  have F := form (g := g) hnv he hp h hm
  have hl : ∀ e ∈ lin circ, NodesLt nv e := fun e hm => he e (List.mem_filter.1 hm).1
  have entry : ∀ i j : Fin m, (reduce m s.M + Op.gminMat (m := m) (nv - 1) g) i j =
      Pi.single i 1 ⬝ᵥ (reduce m s.M + Op.gminMat (m := m) (nv - 1) g) *ᵥ Pi.single j 1 := fun i j => by
    rw [single_dotProduct, one_mul, mulVec_single_one]
    rfl
  refine ⟨?_, fun i j hi hj => ?_, fun u hu => ?_, hdet⟩
  · ext i j
    rw [Matrix.transpose_apply, entry j i, entry i j, F, F]
    congr 2
    · congr 1
      exact List.map_congr_left fun e _ => resForm_symm _ _ e
    · congr 1
      funext k e
      rw [cross, cross]
      ring
    · funext r
      rw [mul_comm (Rlc.ext _ r)]
  · have low : ∀ k : Fin m, nv ≤ k.val + 1 → ∀ r < nv, Rlc.ext (Pi.single k 1 : Fin m → ℝ) r = 0 := fun k hk r hr =>
      ext_low (fun l hl => Pi.single_eq_of_ne (by rintro rfl; omega) _) hr
    rw [entry i j, F, Bound.brSum_zero, Finset.sum_eq_zero, add_zero, add_zero]
    · refine List.sum_eq_zero fun a ha => ?_
      obtain ⟨e, hin, rfl⟩ := List.mem_map.1 ha
      have ht := (hl e hin).term_lt' hnv
      cases e <;> simp only [resForm]
      simp only [term] at ht
      rw [low i hi _ ht.1, low i hi _ ht.2]
      simp
    · intro r _
      split_ifs with hr
      · rw [low i hi r hr]; simp
      · rfl
    · intro k e hk
      have hin : e ∈ lin circ := (List.mem_filter.1 (List.mem_of_getElem? hk)).1
      have ht := (hl e hin).term_lt' hnv
      rw [cross, low i hi _ ht.1, low i hi _ ht.2, low j hj _ ht.1, low j hj _ ht.2]
      ring
  · rw [F, Bound.brSum_zero, add_zero]
    · refine add_nonneg (List.sum_nonneg fun a ha => ?_) (Finset.sum_nonneg fun r _ => ?_)
      · obtain ⟨e, hin, rfl⟩ := List.mem_map.1 ha
        have hp := hpos e (List.mem_filter.1 hin).1
        cases e <;> simp only [resForm] <;> try exact le_rfl
        exact div_nonneg (mul_self_nonneg _) (le_of_lt hp)
      · split_ifs
        · exact mul_nonneg hg (mul_self_nonneg _)
        · exact le_rfl
    · intro k e hk
      rw [cross, ext_high hu (r := nv + (0 + k)) (by omega)]
      ring

theorem ext_continuous {m : Nat} (r : Nat) : Continuous fun u : Fin m → ℝ => Rlc.ext u r := by
  cases r with
  | zero => exact continuous_const
  | succ r =>
    by_cases h : r < m
    · simpa [Rlc.ext, h] using continuous_apply (⟨r, h⟩ : Fin m)
    · simpa [Rlc.ext, h] using continuous_const

theorem ext_move {m : Nat} (u w : Fin m → ℝ) (t : ℝ) (r : Nat) : Rlc.ext (u + t • w) r = Rlc.ext u r + t * Rlc.ext w r := by
  cases r with
  | zero => simp [Rlc.ext]
  | succ r => by_cases h : r < m <;> simp [Rlc.ext, h]

theorem devSum_continuous {X : Type*} [TopologicalSpace X] (f : X → String → Nat → Nat → ℝ) (circ : List (Elem ℝ))
    (h : ∀ id n1 n2 a b c, Elem.NL id n1 n2 a b c ∈ circ → Continuous fun x => f x id n1 n2) :
    Continuous fun x => devSum (f x) circ := by
  induction circ with
  | nil => simpa [devSum] using continuous_const
  | cons e t ih =>
    simp only [devSum_cons]
    refine Continuous.add ?_ (ih fun id n1 n2 a b c hin => h id n1 n2 a b c (List.mem_cons_of_mem _ hin))
    cases e <;> simp only [devTerm] <;> try exact continuous_const
    exact h _ _ _ _ _ _ (List.mem_cons_self ..)

theorem devSum_deriv (f : ℝ → String → Nat → Nat → ℝ) (f' : String → Nat → Nat → ℝ) (circ : List (Elem ℝ))
    (h : ∀ id n1 n2 a b c, Elem.NL id n1 n2 a b c ∈ circ → HasDerivAt (fun x => f x id n1 n2) (f' id n1 n2) 0) :
    HasDerivAt (fun x => devSum (f x) circ) (devSum f' circ) 0 := by
  induction circ with
  | nil => simpa [devSum] using hasDerivAt_const (0 : ℝ) (0 : ℝ)
  | cons e t ih =>
    simp only [devSum_cons]
    refine HasDerivAt.add ?_ (ih fun id n1 n2 a b c hin => h id n1 n2 a b c (List.mem_cons_of_mem _ hin))
    cases e <;> simp only [devTerm] <;> try exact hasDerivAt_const _ _
    exact h _ _ _ _ _ _ (List.mem_cons_self ..)

/-- the content of a device -/
noncomputable def content (i : ℝ → ℝ) (v : ℝ) : ℝ := ∫ t in (0 : ℝ)..v, i t

theorem content_deriv {i : ℝ → ℝ} (hc : Continuous i) (v : ℝ) : HasDerivAt (content i) (i v) v :=
  (hc.integral_hasStrictDerivAt 0 v).hasDerivAt

theorem content_ge {i : ℝ → ℝ} (hc : Continuous i) (hi : Monotone i) (v : ℝ) : v * i 0 ≤ content i v := by
  unfold content
  rcases le_total 0 v with h | h
  · have := intervalIntegral.integral_mono_on h (μ := MeasureTheory.volume) (intervalIntegrable_const (c := i 0)) (hc.intervalIntegrable 0 v)
      fun x hx => hi hx.1
    simpa using this
  · have := intervalIntegral.integral_mono_on h (μ := MeasureTheory.volume) (hc.intervalIntegrable v 0) (intervalIntegrable_const (c := i 0))
      fun x hx => hi hx.2
    rw [intervalIntegral.integral_symm]
    simp at this
    linarith

theorem contents {m nv : Nat} {circ : List (Elem ℝ)} {law : String → Law ℝ} (hm : nv ≤ m + 1)
    (he : ∀ e ∈ circ, NodesLt nv e) (ha : ∀ e ∈ circ, Apart e) (hl : Grow law circ)
    (hc : ∀ id n1 n2 a b c, Elem.NL id n1 n2 a b c ∈ circ → Continuous (law id).i) :
    Network.Content (fun i : Fin m => nv ≤ i.val + 1) (vecT law circ)
      fun u => devSum (fun id n1 n2 => content (law id).i (Rlc.ext u n1 - Rlc.ext u n2)) circ := by
  have dot : ∀ w u : Fin m → ℝ, w ⬝ᵥ vecT law circ u =
      devSum (fun id n1 n2 => (Rlc.ext w n1 - Rlc.ext w n2) * (law id).i (Rlc.ext u n1 - Rlc.ext u n2)) circ := by
    intro w u
    rw [dot_reduce w _ (currents law circ u) (vecT_eq law ha u)]
    simp only [currents, mul_devSum]
    rw [sum_devSum]
    refine devSum_congr circ fun id n1 n2 a b c hin => ?_
    have ht := he _ hin
    simp only [NodesLt] at ht
    rw [sum_inj _ n1 n2 _ (by omega) (by omega)]
  refine ⟨devSum_continuous _ _ fun id n1 n2 a b c hin => ?_, fun u w => ?_, ⟨vecT law circ 0, fun u => ?_⟩,
    fun u i hi => ?_, fun u v huv => ?_⟩
  · have h1 : Continuous (content (law id).i) :=
      continuous_iff_continuousAt.2 fun v => (content_deriv (hc id n1 n2 a b c hin) v).continuousAt
    exact h1.comp ((ext_continuous n1).sub (ext_continuous n2))
  · rw [dot]
    refine devSum_deriv _ _ _ fun id n1 n2 a b c hin => ?_
    have hd := content_deriv (hc id n1 n2 a b c hin) (Rlc.ext u n1 - Rlc.ext u n2)
    have hi : HasDerivAt (fun t : ℝ => Rlc.ext (u + t • w) n1 - Rlc.ext (u + t • w) n2)
        (Rlc.ext w n1 - Rlc.ext w n2) 0 := by
      have e : (fun t : ℝ => Rlc.ext (u + t • w) n1 - Rlc.ext (u + t • w) n2) =
          fun t => (Rlc.ext u n1 - Rlc.ext u n2) + t * (Rlc.ext w n1 - Rlc.ext w n2) := by
        funext t
        rw [ext_move, ext_move]
        ring
      rw [e]
      have := ((hasDerivAt_id (0 : ℝ)).mul_const (Rlc.ext w n1 - Rlc.ext w n2)).const_add (Rlc.ext u n1 - Rlc.ext u n2)
      rwa [one_mul] at this
    have h0 : Rlc.ext (u + (0 : ℝ) • w) n1 - Rlc.ext (u + (0 : ℝ) • w) n2 = Rlc.ext u n1 - Rlc.ext u n2 := by
      rw [zero_smul, add_zero]
    rw [mul_comm]
    have hd' : HasDerivAt (content (law id).i) ((law id).i (Rlc.ext u n1 - Rlc.ext u n2))
        (Rlc.ext (u + (0 : ℝ) • w) n1 - Rlc.ext (u + (0 : ℝ) • w) n2) := by rw [h0]; exact hd
    exact HasDerivAt.comp (0 : ℝ) hd' hi
  · rw [dotProduct_comm, dot, ← sub_nonneg, devSum_sub]
    refine devSum_nonneg circ fun id n1 n2 a b c hin => sub_nonneg.2 ?_
    have e : Rlc.ext (0 : Fin m → ℝ) n1 - Rlc.ext (0 : Fin m → ℝ) n2 = 0 := by
      rw [ext_low (u := (0 : Fin m → ℝ)) (nv := n1 + 1) (fun _ _ => rfl) (Nat.lt_succ_self n1),
        ext_low (u := (0 : Fin m → ℝ)) (nv := n2 + 1) (fun _ _ => rfl) (Nat.lt_succ_self n2), sub_zero]
    rw [e]
    exact content_ge (hc id n1 n2 a b c hin) (hl id n1 n2 a b c hin) _
  · rw [vecT_eq law ha, currents]
    have : devSum (fun id n1 n2 => inj n1 n2 ((law id).i (Rlc.ext u n1 - Rlc.ext u n2)) (i.val + 1)) circ =
        devSum (fun _ _ _ => 0) circ := devSum_congr circ fun id n1 n2 a b c hin => by
      have ht := he _ hin
      simp only [NodesLt] at ht
      rw [inj, if_neg (by omega), if_neg (by omega), sub_zero]
    rw [this]
    have z := mul_devSum 0 (fun _ _ _ => (0 : ℝ)) circ
    simp only [zero_mul] at z
    exact z.symm
  · have hr : ∀ r < nv, Rlc.ext u r = Rlc.ext v r := fun r hr => by
      have := ext_low (u := u - v) (nv := nv) (fun i hi => by rw [Pi.sub_apply, huv i (by omega), sub_self]) hr
      rw [ext_sub] at this
      linarith
    funext i
    rw [vecT_eq law ha, vecT_eq law ha, currents, currents]
    refine devSum_congr circ fun id n1 n2 a b c hin => ?_
    have ht := he _ hin
    simp only [NodesLt] at ht
    rw [hr n1 (by omega), hr n2 (by omega)]

/-- C192: a circuit of positive resistors, capacitors, inductors and independent sources, and devices whose currents are
continuous and do not fall when the voltage grows, has exactly one operating point, if the circuit without its devices
has one solution. -/
theorem C192_exists {m nv : Nat} {circ : List (Elem ℝ)} {s : Sys ℝ} {g : ℝ} {law : String → Law ℝ} (hnv : 0 < nv)
    (hg : 0 ≤ g) (he : ∀ e ∈ circ, NodesLt nv e) (hp : ∀ e ∈ circ, Devices.Part e) (hpos : ∀ e ∈ circ, Positive e)
    (ha : ∀ e ∈ circ, Apart e) (hl : Grow law circ)
    (hc : ∀ id n1 n2 a b c, Elem.NL id n1 n2 a b c ∈ circ → Continuous (law id).i)
    (h : generate circ nv = .ok s) (hm : s.size = m + 1)
    (hdet : (reduce m s.M + Op.gminMat (m := m) (nv - 1) g).det ≠ 0) :
    ∃! x : Fin m → ℝ, IsPoint nv g law circ s x := by
  have hsz : s.size = nv + (vdes (lin circ)).length := by
    rw [generate_lin hp] at h
    exact (rows_linear (fun e hm => he e (List.mem_filter.1 hm).1) (lin_two hp) h (fun _ => 0)).1
  obtain ⟨x, hx⟩ := (network hnv hg he hp hpos h hm hdet).exists_point (reduceV m s.N)
    (contents (by omega) he ha hl hc)
  have hxp : IsPoint nv g law circ s x := fun i => congrFun hx i
  refine ⟨x, hxp, fun y hy => ?_⟩
  have d := difference ha hy hxp
  obtain ⟨-, k⟩ := no_motion hnv hg he hp hpos h hm d (by
    intro id n1 n2 a b c hin
    have := mono_mul (hl id n1 n2 a b c hin) (Rlc.ext y n1 - Rlc.ext y n2) (Rlc.ext x n1 - Rlc.ext x n2)
    rw [ext_sub, ext_sub]
    convert this using 1
    ring)
  refine sub_eq_zero.1 (Matrix.eq_zero_of_mulVec_eq_zero hdet ?_)
  funext i
  have di := d i
  have z : devSum (fun id n1 n2 => inj n1 n2 ((law id).i (Rlc.ext y n1 - Rlc.ext y n2) -
      (law id).i (Rlc.ext x n1 - Rlc.ext x n2)) (i.val + 1)) circ = devSum (fun _ _ _ => 0) circ :=
    devSum_congr circ fun id n1 n2 a b c hin => by
      have := k id n1 n2 a b c hin
      rw [ext_sub, ext_sub] at this
      have t0 : (law id).i (Rlc.ext y n1 - Rlc.ext y n2) - (law id).i (Rlc.ext x n1 - Rlc.ext x n2) = 0 := by
        rcases mul_eq_zero.1 this with h1 | h1
        · rw [show Rlc.ext y n1 - Rlc.ext y n2 = Rlc.ext x n1 - Rlc.ext x n2 by linarith, sub_self]
        · exact h1
      rw [t0, inj]
      simp
  have z0 := mul_devSum 0 (fun _ _ _ => (0 : ℝ)) circ
  simp only [zero_mul] at z0
  rw [z, ← z0, add_zero] at di
  exact di

/-- C192: with Gmin only loops of voltage sources and inductors have to be excluded. -/
theorem C192_gmin {m nv : Nat} {circ : List (Elem ℝ)} {s : Sys ℝ} {g : ℝ} {law : String → Law ℝ} (hnv : 0 < nv)
    (hg : 0 < g) (he : ∀ e ∈ circ, NodesLt nv e) (hp : ∀ e ∈ circ, Devices.Part e) (hpos : ∀ e ∈ circ, Positive e)
    (ha : ∀ e ∈ circ, Apart e) (hl : Grow law circ)
    (hc : ∀ id n1 n2 a b c, Elem.NL id n1 n2 a b c ∈ circ → Continuous (law id).i)
    (h : generate circ nv = .ok s) (hm : s.size = m + 1) (hloop : Loopless m nv s) :
    ∃! x : Fin m → ℝ, IsPoint nv g law circ s x := by
  refine C192_exists hnv hg.le he hp hpos ha hl hc h hm fun hd => ?_
  obtain ⟨z, hz0, hz⟩ := Matrix.exists_mulVec_eq_zero_iff.2 hd
  have z0 : devSum (fun _ _ _ => (0 : ℝ)) circ = 0 := by
    have z0 := mul_devSum 0 (fun _ _ _ => (0 : ℝ)) circ
    simp only [zero_mul] at z0
    exact z0.symm
  obtain ⟨k, -⟩ := no_motion (z := z) (t := fun _ _ _ => 0) hnv hg.le he hp hpos h hm (fun i => by
    have e : (fun (_ : String) n1 n2 => inj n1 n2 (0 : ℝ) (i.val + 1)) = fun _ _ _ => 0 := by
      funext id n1 n2
      simp [inj]
    rw [hz, e, z0]
    simp) (by simp)
  have hn : ∀ i : Fin m, i.val < nv - 1 → z i = 0 := fun i hi => by
    have := k (i.val + 1) (by omega)
    simpa [hg.ne', Rlc.ext, i.isLt] using this
  refine hz0 (loopless_zero hloop hn ?_)
  rw [Matrix.add_mulVec] at hz
  have e : (Op.gminMat (m := m) (nv - 1) g).mulVec z = 0 := by
    funext i
    rw [Op.gminMat, Matrix.mulVec_diagonal]
    by_cases hi : i.val < nv - 1
    · simp [hi, hn i hi]
    · simp [hi]
  rwa [e, add_zero] at hz

/-- the current of a diode with series resistance is continuous -/
theorem diode_continuous {gmin : ℝ} {l : Law ℝ} {dm : Diode.DM} {area : ℝ} (h : IsDiode gmin l dm area) (h0 : dm.RS ≠ 0) :
    Continuous l.i := by
  obtain ⟨vd, hv⟩ := h.series h0
  have hrs : 0 < dm.RS := lt_of_le_of_ne h.rs (Ne.symm h0)
  have hk : 0 < dm.RS * area := mul_pos hrs h.apos
  have key : ∀ a b, a ≤ b → 0 ≤ l.i b - l.i a ∧ (l.i b - l.i a) * (dm.RS * area) ≤ b - a := by
    intro a b hab
    have m1 := h.strictMono.monotone hab
    refine ⟨sub_nonneg.2 m1, ?_⟩
    obtain ⟨r1, e1⟩ := hv a
    obtain ⟨r2, e2⟩ := hv b
    have hw : a - vd a ≤ b - vd b := by
      by_contra hn
      exact absurd (e2.lt h.ok e1 (not_le.1 hn)) (not_lt.2 m1)
    rw [div_eq_iff h0] at r1 r2
    nlinarith
  have hL : LipschitzWith (Real.toNNReal (1 / (dm.RS * area))) l.i := by
    refine LipschitzWith.of_dist_le_mul fun a b => ?_
    rw [Real.coe_toNNReal _ (by positivity), Real.dist_eq, Real.dist_eq, div_mul_eq_mul_div, one_mul, le_div_iff₀ hk]
    rcases le_total a b with hab | hab
    · obtain ⟨k1, k2⟩ := key a b hab
      rw [abs_sub_comm, abs_of_nonneg k1, abs_sub_comm, abs_of_nonneg (by linarith)]
      exact k2
    · obtain ⟨k1, k2⟩ := key b a hab
      rw [abs_of_nonneg k1, abs_of_nonneg (by linarith)]
      exact k2
  exact hL.continuous

/-- C192: circuits with diodes with series resistance have exactly one operating point. -/
theorem C192_diodes_partial {m nv : Nat} {circ : List (Elem ℝ)} {s : Sys ℝ} {g gmin : ℝ} {law : String → Law ℝ} (hnv : 0 < nv)
    (hg : 0 ≤ g) (he : ∀ e ∈ circ, NodesLt nv e) (hp : ∀ e ∈ circ, Devices.Part e) (hpos : ∀ e ∈ circ, Positive e)
    (ha : ∀ e ∈ circ, Apart e)
    (hl : ∀ id n1 n2 a b c, Elem.NL id n1 n2 a b c ∈ circ → ∃ dm area, IsDiode gmin (law id) dm area ∧ dm.RS ≠ 0)
    (h : generate circ nv = .ok s) (hm : s.size = m + 1)
    (hdet : (reduce m s.M + Op.gminMat (m := m) (nv - 1) g).det ≠ 0) :
    ∃! x : Fin m → ℝ, IsPoint nv g law circ s x :=
  C192_exists hnv hg he hp hpos ha (fun id n1 n2 a b c hin => by
    obtain ⟨dm, area, hd, -⟩ := hl id n1 n2 a b c hin
    exact hd.strictMono.monotone) (fun id n1 n2 a b c hin => by
    obtain ⟨dm, area, hd, h0⟩ := hl id n1 n2 a b c hin
    exact diode_continuous hd h0) h hm hdet

/-- C192: an operating point that is reported for a circuit with diodes with series resistance and without breakdown is
near the operating point, which exists. -/
theorem C192_reported_partial {m nv : Nat} {circ : List (Elem ℝ)} {s : Sys ℝ} {gmin c : ℝ} {law : String → Law ℝ}
    (hnv : 0 < nv) (hgm : 0 < gmin) (he : ∀ e ∈ circ, NodesLt nv e) (hp : ∀ e ∈ circ, Devices.Part e)
    (hpos : ∀ e ∈ circ, Positive e) (ha : ∀ e ∈ circ, Apart e) (hgr : Accuracy.Grounded circ)
    (hl : ∀ id n1 n2 a b c, Elem.NL id n1 n2 a b c ∈ circ →
      ∃ dm area, IsDiode gmin (law id) dm area ∧ dm.BV = none ∧ dm.RS ≠ 0)
    (hn : Newton.isNonlinear circ = true) (h : generate circ nv = .ok s) (hm : s.size = m + 1)
    (o : Op.OOpts ℝ) (ho : o.meth.gmin = false ∧ o.meth.src = false) (hlim : 0 ≤ o.newton.lim)
    (x0 : Option (Fin m → ℝ)) {r : Op.OpSol ℝ m}
    (hr : Op.opAnalysis o (Devices.opCirc m nv gmin law circ s) gmin x0 = some (some r))
    (hdet : (reduce m s.M + Op.gminMat (m := m) (nv - 1) r.gmin).det ≠ 0)
    (hc0 : 0 ≤ c) (hb : o.tol.vea ≤ c) (hc : ∀ r, 0 < r → r < nv → ¬ Accuracy.Held circ r →
      0 < Accuracy.toGround circ r ∧ o.tol.iea ≤ Accuracy.toGround circ r * c) :
    ∃ y : Fin m → ℝ, IsPoint nv r.gmin law circ s y ∧ (∀ y', IsPoint nv r.gmin law circ s y' → y' = y) ∧
      ∀ i : Fin m, i.val + 1 < nv → |r.x i - y i| ≤ 2 * c := by
  have g0 : 0 ≤ r.gmin := by
    rcases (Op.C119_reported_partial o ho.1 ho.2 _ gmin x0 r hr).1 with h' | h' <;> rw [h']
    exact hgm.le
  obtain ⟨y, hy, hu⟩ := C192_diodes_partial (gmin := gmin) hnv g0 he hp hpos ha (fun id n1 n2 a b c hin => by
    obtain ⟨dm, area, hd, -, h0⟩ := hl id n1 n2 a b c hin
    exact ⟨dm, area, hd, h0⟩) h hm hdet
  exact ⟨y, hy, hu, Accuracy.C191_diodes hnv hgm he hp hpos ha hgr (fun id n1 n2 a b c hin => by
    obtain ⟨dm, area, hd, hbv, -⟩ := hl id n1 n2 a b c hin
    exact ⟨dm, area, hd, hbv⟩) hn h hm o ho hlim x0 hr hc0 hb hc hy⟩

/-- with Gmin the circuit without its devices has one solution, if the circuit with conductances for its devices has -/
theorem bridged_regular {m nv : Nat} {circ : List (Elem ℝ)} {s : Sys ℝ} {g : ℝ} (hnv : 0 < nv) (hg : 0 < g)
    (he : ∀ e ∈ circ, NodesLt nv e) (hp : ∀ e ∈ circ, Devices.Part e) (hpos : ∀ e ∈ circ, Positive e)
    (h : generate circ nv = .ok s) (hm : s.size = m + 1) (hb : Bridged m nv circ) :
    (reduce m s.M + Op.gminMat (m := m) (nv - 1) g).det ≠ 0 := by
  intro hd
  obtain ⟨z, hz0, hz⟩ := Matrix.exists_mulVec_eq_zero_iff.2 hd
  have z0 : devSum (fun _ _ _ => (0 : ℝ)) circ = 0 := by
    have z0 := mul_devSum 0 (fun _ _ _ => (0 : ℝ)) circ
    simp only [zero_mul] at z0
    exact z0.symm
  obtain ⟨k, -⟩ := no_motion (z := z) (t := fun _ _ _ => 0) hnv hg.le he hp hpos h hm (fun i => by
    have e : (fun (_ : String) n1 n2 => inj n1 n2 (0 : ℝ) (i.val + 1)) = fun _ _ _ => 0 := by
      funext id n1 n2
      simp [inj]
    rw [hz, e, z0]
    simp) (by simp)
  have kz : ∀ r < nv, Rlc.ext z r = 0 := fun r hr => (mul_eq_zero.1 (k r hr)).resolve_left hg.ne'
  refine hz0 (bridged_zero he hp h hm hb (fun id n1 n2 a b c hin => ?_) ?_)
  · have ht := he _ hin
    simp only [NodesLt] at ht
    rw [kz n1 (by omega), kz n2 (by omega), sub_zero]
  · rw [Matrix.add_mulVec] at hz
    have e : (Op.gminMat (m := m) (nv - 1) g).mulVec z = 0 := by
      funext i
      rw [Op.gminMat, Matrix.mulVec_diagonal]
      by_cases hi : i.val < nv - 1
      · have := kz (i.val + 1) (by omega)
        have e2 : z i = 0 := by simpa [Rlc.ext, i.isLt] using this
        simp [hi, e2]
      · simp [hi]
    rwa [e, add_zero] at hz

/-- C192: for each such circuit there is a start from which the operating point analysis succeeds with the plain Newton
method. -/
theorem C192_found_partial {m nv : Nat} {circ : List (Elem ℝ)} {s : Sys ℝ} {gmin : ℝ} {law : String → Law ℝ}
    (hnv : 0 < nv) (hgm : 0 < gmin) (he : ∀ e ∈ circ, NodesLt nv e) (hp : ∀ e ∈ circ, Devices.Part e)
    (hpos : ∀ e ∈ circ, Positive e) (ha : ∀ e ∈ circ, Apart e)
    (hl : ∀ id n1 n2 a b c, Elem.NL id n1 n2 a b c ∈ circ →
      ∃ dm area, IsDiode gmin (law id) dm area ∧ dm.BV = none ∧ dm.RS ≠ 0)
    (hn : Newton.isNonlinear circ = true) (h : generate circ nv = .ok s) (hm : s.size = m + 1) (hb : Bridged m nv circ)
    (o : Op.OOpts ℝ) (ho : o.meth.std = true ∧ o.meth.gmin = false ∧ o.meth.src = false) (hi : 0 < o.maxit)
    (ht : 0 ≤ o.tol.vea ∧ 0 ≤ o.tol.ver ∧ 0 ≤ o.tol.iea ∧ 0 ≤ o.tol.ier) :
    ∃ (x0 : Fin m → ℝ) (r : Op.OpSol ℝ m), IsPoint nv gmin law circ s x0 ∧
      Op.opAnalysis o (Devices.opCirc m nv gmin law circ s) gmin (some x0) = some (some r) := by
  obtain ⟨x0, hx, -⟩ := C192_diodes_partial (gmin := gmin) hnv hgm.le he hp hpos ha (fun id n1 n2 a b c hin => by
    obtain ⟨dm, area, hd, -, h0⟩ := hl id n1 n2 a b c hin
    exact ⟨dm, area, hd, h0⟩) h hm (bridged_regular hnv hgm he hp hpos h hm hb)
  have hcond : Conduct law circ := fun id n1 n2 a b c hin v => by
    obtain ⟨dm, area, hd, hbv, -⟩ := hl id n1 n2 a b c hin
    exact (hd.gm_pos hgm hbv v).le
  set c := Devices.opCirc m nv gmin law circ s with hc
  have hs : (Homotopy.setNext o.meth Homotopy.init).std.enabled = true ∧
      (Homotopy.setNext o.meth Homotopy.init).gm.enabled = false ∧
      (Homotopy.setNext o.meth Homotopy.init).src.enabled = false := by simp [Homotopy.setNext, Homotopy.init, ho]
  have hch : Homotopy.choose o.meth (Homotopy.setNext o.meth Homotopy.init) = .ok .full := by
    unfold Homotopy.choose
    rw [if_pos hs.1]
  have att : ∀ g x r, Newton.mdnSolver o.newton o.tol (Op.problem c g .full) o.maxit (some x) = .ok r →
      Op.attempt o (Op.problem c g .full) x = some (r.x, r.converged) := fun g x r hr => by
    unfold Op.attempt
    rw [hr]
  have run : ∀ g x r, Newton.mdnSolver o.newton o.tol (Op.problem c g .full) o.maxit (some x) = .ok r →
      r.converged = true → Op.dcSolve o c g (some x) = .solved r.x := by
    intro g x r hr hcv
    unfold Op.dcSolve Op.loopX
    rw [hch]
    simp only [Option.getD_some, att g x r hr, hcv]
    simp [Homotopy.after, hs]
  have ends : ∀ x, Op.dcSolve o c 0 (some x) = .failed ∨ ∃ z, Op.dcSolve o c 0 (some x) = .solved z := by
    intro x
    obtain ⟨r, hr⟩ := C146_newton hnv le_rfl hgm he hp hpos ha hcond hn h hm hb .full o.newton o.tol hi (some x)
    cases hcv : r.converged
    · obtain ⟨r', hr'⟩ := C146_newton hnv le_rfl hgm he hp hpos ha hcond hn h hm hb .full o.newton o.tol hi (some r.x)
      have hst : Homotopy.after o.meth { Homotopy.setNext o.meth Homotopy.init with sys := some .full } false =
          .next { std := { failed := true }, gm := { }, src := { }, sys := some Homotopy.Sys.full } := by
        simp [Homotopy.after, Homotopy.moreAvailable, Homotopy.setNext, Homotopy.init, ho]
      unfold Op.dcSolve Op.loopX
      rw [hch]
      simp only [Option.getD_some, att 0 x r hr, hcv, hst]
      unfold Op.loopX
      simp only [Homotopy.choose, Bool.false_eq_true, if_false, att 0 r.x r' hr']
      cases r'.converged
      · left
        simp [Homotopy.after, Homotopy.moreAvailable, ho]
      · right
        exact ⟨r'.x, by simp [Homotopy.after]⟩
    · exact .inr ⟨_, run 0 x r hr hcv⟩
  have e0 : (Op.problem c gmin .full).nonlinear = true := hn
  obtain ⟨r1, a1, a2, a3, -⟩ := Newton.C78_stays_at_solution o.newton o.tol (Op.problem c gmin .full) ht o.maxit hi x0 (by
      funext i
      have := hx i
      unfold Newton.residual
      rw [e0, if_pos rfl]
      simp only [Op.problem, hc, Devices.opCirc, Pi.add_apply, add_zero]
      exact this) (by
      unfold Newton.jac
      rw [e0, if_pos rfl]
      exact C146_regular hnv hgm.le hgm he hp hpos ha hcond h hm hb x0)
  have d1 := run gmin x0 r1 a1 a3
  rcases ends r1.x with d2 | ⟨z, d2⟩
  · exact ⟨x0, ⟨r1.x, gmin⟩, hx, by unfold Op.opAnalysis; rw [d1]; simp only [d2]⟩
  · exact ⟨x0, ⟨z, 0⟩, hx, by unfold Op.opAnalysis; rw [d1]; simp only [d2]⟩

theorem line_point (law : String → Law ℝ) (r j : ℝ) {x : Fin 1 → ℝ}
    (hx : IsPoint 2 0 law (loadLine r j) (sysR (loadLine r j) 2) x) : x 0 / r - j + (law "D1").i (x 0) = 0 := by
  have hap : ∀ e ∈ loadLine r j, Apart e := by simp [loadLine, Apart]
  have hM : (sysR (loadLine r j) 2).M 1 1 = 1 / r := by
    simp [sysR, loadLine, generate, loop, stamp1, stamp2, stamp3, Mat.add, Mat.put, Vec.add, Src.eval]
  have hN : (sysR (loadLine r j) 2).N 1 = -j := by
    simp [sysR, loadLine, generate, loop, stamp1, stamp2, stamp3, Mat.add, Mat.put, Vec.add, Vec.put, Src.eval]
  have h1 := hx 0
  rw [vecT_eq law hap] at h1
  have hc : currents law (loadLine r j) x 1 = (law "D1").i (x 0) := by
    simp [currents, loadLine, devSum, devTerm, inj, Rlc.ext]
  have hm : (Rlc.reduce 1 (sysR (loadLine r j) 2).M + Op.gminMat (2 - 1) 0).mulVec x 0 = 1 / r * x 0 := by
    rw [← hM]
    simp [Matrix.mulVec, dotProduct, Rlc.reduce, Op.gminMat]
  change _ + (sysR (loadLine r j) 2).N 1 + currents law (loadLine r j) x 1 = 0 at h1
  rw [hm, hc, hN] at h1
  linear_combination h1

/-- C192: the continuity is needed: for every device whose current jumps upwards somewhere and every resistor there is a
current source that leaves no operating point. -/
theorem C192_jump (law : String → Law ℝ) {v0 a b : ℝ} (hab : a < b) (h1 : ∀ v < v0, (law "D1").i v ≤ a)
    (h2 : ∀ v, v0 ≤ v → b ≤ (law "D1").i v) {r : ℝ} (hr : 0 < r) :
    ∃ j, ¬ ∃ x : Fin 1 → ℝ, IsPoint 2 0 law (loadLine r j) (sysR (loadLine r j) 2) x := by
  refine ⟨v0 / r + (a + b) / 2, fun ⟨x, hx⟩ => ?_⟩
  have e := line_point law r _ hx
  rcases lt_or_ge (x 0) v0 with h | h
  · have := h1 _ h
    have h3 : x 0 / r < v0 / r := (div_lt_div_iff_of_pos_right hr).2 h
    linarith
  · have := h2 _ h
    have h3 : v0 / r ≤ x 0 / r := (div_le_div_iff_of_pos_right hr).2 h
    linarith

/-- C192, disagreement: the default diode with a resistor across it has no operating point at some currents: at 70 thermal
voltages its current jumps (`C42_jump_refuted`). -/
theorem C192_diode_refuted {r : ℝ} (hr : 0 < r) : IsDiode (1 / 10 ^ 12) (plainLaw "D1") Diode.default 1 ∧
    ∃ j, ¬ ∃ x : Fin 1 → ℝ, IsPoint 2 0 plainLaw (loadLine r j) (sysR (loadLine r j) 2) x := by
  refine ⟨plain_diode, ?_⟩
  have cur : ∀ v : ℝ, (plainLaw "D1").i v = 1 / 10 ^ 14 * Diode.safeExp (v * 40) := fun v => by
    simp only [plainLaw, Diode.DM.getI, Diode.DM.cur, Diode.default, Diode.DM.fwd, Diode.DM.recomb, Diode.DM.rev,
      Diode.kinj, Diode.breakdown]
    rw [show v / (1 * (1 / 40)) = v * 40 by ring]
    ring
  refine C192_jump plainLaw (v0 := 70 / 40) (a := 1 / 10 ^ 14 * Real.exp 70) (b := 1 / 10 ^ 14 * (Real.exp 70 + 700))
    (by linarith) (fun v hv => ?_) (fun v hv => ?_) hr
  · rw [cur, Diode.safeExp, if_pos (by linarith)]
    exact mul_le_mul_of_nonneg_left (Real.exp_le_exp.2 (by linarith)) (by positivity)
  · rw [cur, Diode.safeExp, if_neg (by linarith)]
    exact mul_le_mul_of_nonneg_left (by linarith) (by positivity)

/-! ### Examples -/

/-- a resistor, a diode with 10 ohm in series, and a current -/
example (j : ℝ) : ∃ law : String → Law ℝ, IsDiode (1 / 10 ^ 12) (law "D1") { Diode.default with RS := 10 } 1 ∧
    ∃! x : Fin 1 → ℝ, IsPoint 2 0 law (loadLine 1000 j) (sysR (loadLine 1000 j) 2) x := by
  obtain ⟨l, hl⟩ := diode_exists (1 / 10 ^ 12) (m := { Diode.default with RS := 10 })
    (by constructor <;> norm_num [Diode.default]) one_pos (by norm_num)
  refine ⟨fun _ => l, hl, C192_diodes_partial (gmin := 1 / 10 ^ 12) (by norm_num) le_rfl ?_ ?_ ?_ ?_
    (fun id n1 n2 a b c _ => ⟨_, 1, hl, by norm_num⟩) rfl rfl ?_⟩
  · simp [loadLine, NodesLt]
  · simp [loadLine, Devices.Part, TwoPole, Elem.nonlinear]
  · simp [loadLine, Positive]
  · simp [loadLine, Apart]
  · rw [Matrix.det_fin_one]
    have : (Rlc.reduce 1 (sysR (loadLine 1000 j) 2).M + Op.gminMat (2 - 1) 0 : Matrix (Fin 1) (Fin 1) ℝ) 0 0 = 1 / 1000 := by
      rw [Matrix.add_apply]
      simp [Rlc.reduce, Op.gminMat, sysR, loadLine, generate, loop, stamp1, stamp2, stamp3, Mat.add, Mat.put, Vec.add, Src.eval]
    rw [this]
    norm_num

noncomputable def plainOpts : Op.OOpts ℝ :=
  ⟨⟨true, false, false, 27⟩, { lim := 1 / 10 }, ⟨1 / 10 ^ 6, 1 / 10 ^ 3, 1 / 10 ^ 12, 1 / 10 ^ 3⟩, 10000⟩

/-- and an operating point is reported for it that is as near as the tolerance of 1 pA demands, across 1000 ohm -/
example (j : ℝ) : ∃ law : String → Law ℝ, IsDiode (1 / 10 ^ 12) (law "D1") { Diode.default with RS := 10 } 1 ∧
    ∃ (x0 : Fin 1 → ℝ) (r : Op.OpSol ℝ 1) (y : Fin 1 → ℝ),
      Op.opAnalysis plainOpts
        (Devices.opCirc 1 2 (1 / 10 ^ 12) law (loadLine 1000 j) (sysR (loadLine 1000 j) 2)) (1 / 10 ^ 12) (some x0) =
          some (some r) ∧
      IsPoint 2 r.gmin law (loadLine 1000 j) (sysR (loadLine 1000 j) 2) y ∧ |r.x 0 - y 0| ≤ 2 / 10 ^ 6 := by
  obtain ⟨l, hl⟩ := diode_exists (1 / 10 ^ 12) (m := { Diode.default with RS := 10 })
    (by constructor <;> norm_num [Diode.default]) one_pos (by norm_num)
  have k1 : ∀ e ∈ loadLine 1000 j, NodesLt 2 e := by simp [loadLine, NodesLt]
  have k2 : ∀ e ∈ loadLine 1000 j, Devices.Part e := by simp [loadLine, Devices.Part, TwoPole, Elem.nonlinear]
  have k3 : ∀ e ∈ loadLine 1000 j, Positive e := by simp [loadLine, Positive]
  have k4 : ∀ e ∈ loadLine 1000 j, Apart e := by simp [loadLine, Apart]
  have k5 : Bridged 1 2 (loadLine 1000 j) := by
    refine ⟨sysR ((loadLine 1000 j).map bridged) 2, rfl, ?_⟩
    rw [Matrix.det_fin_one]
    have : Rlc.reduce 1 (sysR ((loadLine 1000 j).map bridged) 2).M 0 0 = 1 / 1000 + 1 := by
      simp [Rlc.reduce, sysR, loadLine, bridged, generate, loop, stamp1, stamp2, stamp3, Mat.add, Mat.put, Vec.add, Src.eval]
    rw [this]
    norm_num
  have hd : ∀ g, 0 ≤ g → (Rlc.reduce 1 (sysR (loadLine 1000 j) 2).M + Op.gminMat (m := 1) (2 - 1) g).det ≠ 0 := fun g hg => by
    rw [Matrix.det_fin_one]
    have : (Rlc.reduce 1 (sysR (loadLine 1000 j) 2).M + Op.gminMat (2 - 1) g : Matrix (Fin 1) (Fin 1) ℝ) 0 0 = 1 / 1000 + g := by
      rw [Matrix.add_apply]
      simp [Rlc.reduce, Op.gminMat, sysR, loadLine, generate, loop, stamp1, stamp2, stamp3, Mat.add, Mat.put, Vec.add, Src.eval]
    rw [this]
    positivity
  obtain ⟨x0, r, -, hr⟩ := C192_found_partial (gmin := 1 / 10 ^ 12) (law := fun _ => l) (by norm_num) (by norm_num) k1 k2 k3 k4
    (fun id n1 n2 a b c _ => ⟨_, 1, hl, rfl, by norm_num⟩) rfl rfl rfl k5
    plainOpts ⟨rfl, rfl, rfl⟩ (by norm_num [plainOpts]) (by norm_num [plainOpts])
  have g0 : 0 ≤ r.gmin := by
    rcases (Op.C119_reported_partial _ rfl rfl _ _ _ r hr).1 with h' | h' <;> rw [h']
    norm_num
  obtain ⟨y, hy, -, hb⟩ := C192_reported_partial (c := 1 / 10 ^ 6) (by norm_num) (by norm_num) k1 k2 k3 k4
    (by simp [loadLine, Accuracy.Grounded, Elem.vde, term]) (fun id n1 n2 a b c _ => ⟨_, 1, hl, rfl, by norm_num⟩) rfl rfl rfl
    plainOpts ⟨rfl, rfl⟩ (by norm_num [plainOpts]) _ hr (hd _ g0) (by norm_num) (by norm_num [plainOpts]) (fun n h0 h1 _ => by
      obtain rfl : n = 1 := by omega
      simp [Accuracy.toGround, loadLine, Accuracy.groundTerm, plainOpts]
      norm_num)
  refine ⟨fun _ => l, hl, x0, r, y, hr, hy, ?_⟩
  have := hb 0 (by norm_num)
  exact this.trans (by norm_num)

end Circuit
end Verif.Exist
