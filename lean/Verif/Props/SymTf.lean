import Verif.Model.SymTf
import Mathlib.Analysis.Complex.Polynomial.Basic
import Mathlib.Topology.Algebra.Polynomial
import Mathlib.Algebra.Polynomial.Splits
import Mathlib.Data.String.Basic
import Mathlib.Tactic.FieldSimp
import Mathlib.Tactic.LinearCombination
import Mathlib.Tactic.NormNum

/-!
C224: poles, zeros and DC gain of the transfer functions that symbolic analyses return.
-/

namespace Verif.SymTf
open Polynomial Topology Filter

/-- `sympy.solve` of a polynomial: every root, once; no solution is returned for the zero polynomial -/
structure Solver (solve : ℂ[X] → List ℂ) : Prop where
  zero : solve 0 = []
  mem : ∀ p, p ≠ 0 → ∀ z, z ∈ solve p ↔ p.eval z = 0
  nodup : ∀ p, (solve p).Nodup

variable {solve : ℂ[X] → List ℂ} (hs : Solver solve) {num den : ℂ[X]}
include hs

/-- C224: if the fraction is reduced, the gain grows without bound at the reported poles and nowhere else. -/
theorem C224_poles (hd : den ≠ 0) (hc : IsCoprime num den) (z : ℂ) :
    z ∈ (calculate solve num den).poles ↔ Tendsto (fun s => ‖(calculate solve num den).at s‖) (𝓝[≠] z) atTop := by
  change z ∈ solve den ↔ Tendsto (fun s => ‖num.eval s / den.eval s‖) (𝓝[≠] z) atTop
  rw [hs.mem den hd]
  constructor
  · intro h
    have hn : num.eval z ≠ 0 := by
      intro h0
      obtain ⟨a, b, hab⟩ := hc
      have := congrArg (eval z) hab
      simp [h, h0] at this
    have h1 : Tendsto (fun s => ‖num.eval s‖) (𝓝[≠] z) (𝓝 ‖num.eval z‖) :=
      (num.continuous.norm.tendsto z).mono_left nhdsWithin_le_nhds
    have h2 : Tendsto (fun s => den.eval s) (𝓝[≠] z) (𝓝[≠] 0) := by
      refine tendsto_nhdsWithin_iff.2 ⟨?_, ?_⟩
      · have := den.continuous.tendsto z
        rw [h] at this
        exact this.mono_left nhdsWithin_le_nhds
      · have hfin : ({x | x ∈ den.roots} : Set ℂ).Finite := den.roots.toFinset.finite_toSet.subset fun x hx => by simpa using hx
        have : ({x | x ∈ den.roots} \ {z})ᶜ ∈ 𝓝 z := (hfin.subset Set.sdiff_subset).isClosed.isOpen_compl.mem_nhds (by simp)
        filter_upwards [mem_nhdsWithin_of_mem_nhds this, self_mem_nhdsWithin] with x hx hxz h0
        exact hx ⟨(mem_roots hd).2 h0, hxz⟩
    have h3 := tendsto_norm_inv_nhdsNE_zero_atTop.comp h2
    have h4 := Tendsto.pos_mul_atTop (norm_pos_iff.2 hn) h1 h3
    refine h4.congr fun s => ?_
    rw [norm_div, div_eq_mul_inv, Function.comp, norm_inv]
  · intro h
    by_contra hne
    have h1 : Tendsto (fun s => ‖num.eval s / den.eval s‖) (𝓝[≠] z) (𝓝 ‖num.eval z / den.eval z‖) :=
      ((num.continuous.tendsto z).div (den.continuous.tendsto z) hne).norm.mono_left nhdsWithin_le_nhds
    exact not_tendsto_nhds_of_tendsto_atTop h _ h1

/-- C224: if the fraction is reduced and the gain is not zero throughout, the reported zeros are the points where it vanishes. -/
theorem C224_zeros (hn : num ≠ 0) (hc : IsCoprime num den) (z : ℂ) :
    z ∈ (calculate solve num den).zeros ↔ den.eval z ≠ 0 ∧ (calculate solve num den).at z = 0 := by
  change z ∈ solve num ↔ den.eval z ≠ 0 ∧ num.eval z / den.eval z = 0
  rw [hs.mem num hn]
  constructor
  · intro h
    refine ⟨fun h0 => ?_, by rw [h, zero_div]⟩
    obtain ⟨a, b, hab⟩ := hc
    have := congrArg (eval z) hab
    simp [h, h0] at this
  · rintro ⟨h0, h⟩
    rcases div_eq_zero_iff.1 h with h | h
    · exact h
    · exact absurd h h0

omit hs in
/-- C224: the gain at DC is the gain at `s = 0`, if there is one. -/
theorem C224_gain0 (g : ℂ) : (calculate solve num den).gain0 = some g ↔ den.eval 0 ≠ 0 ∧ (calculate solve num den).at 0 = g := by
  change (if den.eval 0 = 0 then none else some (num.eval 0 / den.eval 0)) = some g ↔ _ ∧ num.eval 0 / den.eval 0 = g
  split_ifs with h <;> simp [h]

theorem eval_factored {p : ℂ[X]} (h0 : p.eval 0 ≠ 0) (hr : p.roots.Nodup) (s : ℂ) :
    p.eval s = p.eval 0 * ((solve p).map fun r => 1 - s / r).prod := by
  have hp : p ≠ 0 := fun h => h0 (by simp [h])
  have hroots : p.roots = ↑(solve p) := by
    refine (Multiset.Nodup.ext hr (Multiset.coe_nodup.2 (hs.nodup p))).2 fun a => ?_
    rw [mem_roots hp, Multiset.mem_coe, hs.mem p hp, IsRoot]
  have hsplit := (IsAlgClosed.splits p).eq_prod_roots
  have ev : ∀ x, p.eval x = p.leadingCoeff * ((solve p).map fun r => x - r).prod := by
    intro x
    conv_lhs => rw [hsplit]
    rw [hroots]
    simp [eval_list_prod, Function.comp_def]
  have ne : ∀ r ∈ solve p, r ≠ 0 := by
    rintro r hr rfl
    exact h0 ((hs.mem p hp 0).1 hr)
  rw [ev s, ev 0, mul_assoc]
  congr 1
  generalize solve p = l at ne
  induction l with
  | nil => simp
  | cons r l ih =>
    have hr := ne r (by simp)
    simp only [List.map_cons, List.prod_cons]
    rw [ih fun x hx => ne x (by simp [hx])]
    field_simp
    ring

/-- C224 (partial: no multiple roots and none at zero): the gain is the one at DC times the product of `1 - s/z` over the zeros, over the
product of `1 - s/p` over the poles. -/
theorem C224_factored_partial (hn0 : num.eval 0 ≠ 0) (hd0 : den.eval 0 ≠ 0) (hn : num.roots.Nodup) (hd : den.roots.Nodup) (s : ℂ) :
    ∃ g, (calculate solve num den).gain0 = some g ∧ (calculate solve num den).at s =
      g * ((calculate solve num den).zeros.map fun z => 1 - s / z).prod / ((calculate solve num den).poles.map fun p => 1 - s / p).prod := by
  refine ⟨num.eval 0 / den.eval 0, by rw [C224_gain0]; exact ⟨hd0, rfl⟩, ?_⟩
  change num.eval s / den.eval s = _ * ((solve num).map _).prod / ((solve den).map _).prod
  rw [eval_factored hs hn0 hn s, eval_factored hs hd0 hd s]
  rw [div_mul_eq_mul_div, div_div]

/-- C224 refuted: a double pole is reported once, so that the product is not the gain: `1/(1+s)²` at `s = 1`. -/
theorem C224_factored_refuted :
    let t := calculate solve 1 ((X + 1) ^ 2)
    t.gain0 = some 1 ∧ t.poles.length = 1 ∧ t.at 1 ≠ 1 * (t.zeros.map fun z => 1 - 1 / z).prod / (t.poles.map fun p => 1 - 1 / p).prod := by
  intro t
  have hne : ((X + 1 : ℂ[X]) ^ 2) ≠ 0 := pow_ne_zero _ (X_add_C_ne_zero 1)
  have hp : t.poles = [-1] := by
    change solve ((X + 1) ^ 2) = [-1]
    have hm : ∀ z, z ∈ solve ((X + 1) ^ 2) ↔ z ∈ [(-1 : ℂ)] := fun z => by
      rw [hs.mem _ hne]
      simp [add_eq_zero_iff_eq_neg]
    exact List.perm_singleton.1 ((List.perm_ext_iff_of_nodup (hs.nodup _) (by simp)).2 hm)
  have hz : t.zeros = [] := by
    change solve 1 = []
    refine List.eq_nil_iff_forall_not_mem.2 fun z hz => ?_
    rw [hs.mem 1 one_ne_zero] at hz
    simp at hz
  refine ⟨by rw [C224_gain0]; simp [Tf.at, calculate], by rw [hp]; rfl, ?_⟩
  rw [hp, hz]
  simp [t, calculate, Tf.at]
  norm_num

/-- C224 refuted: a common factor that `sympy.together` leaves is reported as a pole and as a zero, where the gain has neither. -/
theorem C224_common_refuted :
    let t := calculate solve (X + 1) ((X + 1) * (X + 2))
    (-1 : ℂ) ∈ t.poles ∧ (-1 : ℂ) ∈ t.zeros ∧ Tendsto (fun s => t.at s) (𝓝[≠] (-1)) (𝓝 1) := by
  intro t
  have h1 : (X + 1 : ℂ[X]) ≠ 0 := X_add_C_ne_zero 1
  have h2 : (X + 2 : ℂ[X]) ≠ 0 := X_add_C_ne_zero 2
  refine ⟨(hs.mem _ (mul_ne_zero h1 h2) _).2 (by simp), (hs.mem _ h1 _).2 (by simp), ?_⟩
  have h3 : Tendsto (fun s : ℂ => 1 / (s + 2)) (𝓝[≠] (-1)) (𝓝 1) := by
    have : Tendsto (fun s : ℂ => 1 / (s + 2)) (𝓝 (-1)) (𝓝 (1 / (-1 + 2))) :=
      tendsto_const_nhds.div (tendsto_id.add tendsto_const_nhds) (by norm_num)
    have h := this.mono_left (nhdsWithin_le_nhds (s := {(-1 : ℂ)}ᶜ))
    norm_num at h ⊢
    exact h
  refine h3.congr' ?_
  filter_upwards [self_mem_nhdsWithin] with s hsm
  have : s + 1 ≠ 0 := fun h => hsm (by rw [Set.mem_singleton_iff]; linear_combination h)
  simp [t, calculate, Tf.at]
  field_simp

/-- C224: the text of the results shows every transfer function once, in alphabetical order, and with each its gain at DC and all of
its poles and zeros. -/
theorem C224_printed (r : List (String × ℂ[X] × ℂ[X])) :
    let fns := r.map fun x => (x.1, calculate solve x.2.1 x.2.2)
    ∃ l : List (String × Tf), l.Perm fns ∧ l.Pairwise (fun a b => a.1 ≤ b.1) ∧ text fns = (l.map fun x => x.2.lines x.1).flatten ∧
      ∀ x ∈ l, (x.2.lines x.1).head? = some (.gain x.1 x.2.num x.2.den) ∧
        (x.2.poles ≠ [] → ∃ g b, x.2.lines x.1 = g :: .gain0 x.2.gain0 :: Line.head "poles" :: x.2.poles.map .root ++ b) ∧
        (x.2.zeros ≠ [] → ∃ g a, x.2.lines x.1 = g :: .gain0 x.2.gain0 :: a ++ Line.head "zeros" :: x.2.zeros.map .root) := by
  intro fns
  refine ⟨fns.mergeSort fun a b => a.1 ≤ b.1, List.mergeSort_perm _ _, ?_, rfl, fun x hx => ⟨rfl, ?_⟩⟩
  · have := List.pairwise_mergeSort (le := fun a b : String × Tf => decide (a.1 ≤ b.1))
      (fun a b c h1 h2 => by simp only [decide_eq_true_eq] at *; exact le_trans h1 h2)
      (fun a b => by simp only [Bool.or_eq_true, decide_eq_true_eq]; exact le_total _ _) fns
    exact this.imp fun h => by simpa using h
  · have hx' := (List.mergeSort_perm fns _).mem_iff.1 hx
    obtain ⟨y, -, rfl⟩ := List.mem_map.1 hx'
    have const : ∀ p : ℂ[X], p.natDegree = 0 → solve p = [] := by
      intro p hp
      by_cases h0 : p = 0
      · rw [h0, hs.zero]
      · refine List.eq_nil_iff_forall_not_mem.2 fun w hw => ?_
        rw [hs.mem p h0, eq_C_of_natDegree_eq_zero hp, eval_C] at hw
        exact h0 (by rw [eq_C_of_natDegree_eq_zero hp, hw, C_0])
    have rl : ∀ (w : String) (l : List ℂ), l ≠ [] → rootLines w l = Line.head w :: l.map .root := by
      intro w l h
      unfold rootLines
      rw [if_neg (by rwa [List.length_eq_zero_iff])]
    refine ⟨fun hz => ?_, fun hz => ?_⟩
    · have hnc : ¬ (calculate solve y.2.1 y.2.2).constant := fun h => hz (const y.2.2 h.2)
      simp only [Tf.lines, if_neg hnc]
      exact ⟨_, _, by rw [rl _ _ hz]; rfl⟩
    · have hnc : ¬ (calculate solve y.2.1 y.2.2).constant := fun h => hz (const y.2.1 h.1)
      simp only [Tf.lines, if_neg hnc]
      exact ⟨_, rootLines "poles" _, by rw [rl "zeros" _ hz]; rfl⟩

omit hs

/-! ### Examples -/

/-- there is such a solver -/
noncomputable def solver (p : ℂ[X]) : List ℂ := p.roots.toFinset.toList

theorem solver_spec : Solver solver := by
  refine ⟨by simp [solver], fun p hp z => ?_, fun p => Finset.nodup_toList _⟩
  simp [solver, hp]

/-- a low-pass filter `1 / (1 + 2 s)`: one pole at −1/2, no zero, 1 at DC -/
example : (1 : ℂ[X]).eval 0 ≠ 0 ∧ (C 2 * X + 1 : ℂ[X]).eval 0 ≠ 0 ∧ IsCoprime (1 : ℂ[X]) (C 2 * X + 1) ∧ (1 : ℂ[X]).roots.Nodup ∧
    (C 2 * X + 1 : ℂ[X]).roots.Nodup ∧ (-1 / 2 : ℂ) ∈ (calculate solver 1 (C 2 * X + 1)).poles := by
  have hr : (C 2 * X + C 1 : ℂ[X]).roots = {-(2⁻¹ * 1)} := by
    rw [roots_C_mul_X_add_C _ (two_ne_zero)]
  rw [C_1] at hr
  refine ⟨by simp, by simp, isCoprime_one_left, by simp, by rw [hr]; simp, ?_⟩
  change _ ∈ solver _
  rw [solver_spec.mem]
  · simp
    norm_num
  · intro h
    have := congrArg (eval 0) h
    simp at this

end Verif.SymTf
