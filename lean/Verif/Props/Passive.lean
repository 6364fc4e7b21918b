import Verif.Props.MnaOrder
import Mathlib.Algebra.Order.Field.Basic
import Mathlib.LinearAlgebra.Matrix.NonsingularInverse
import Mathlib.LinearAlgebra.Matrix.ToLinearEquiv
import Mathlib.Logic.Relation
import Mathlib.Tactic.Positivity
import Mathlib.Tactic.Linarith

/-!
Properties C65, C66: resistor networks are passive and have exactly one operating point.
-/

namespace Verif.Mna
open Verif.Circuit

variable {α : Type} [Field α]

/-- only resistors and current sources -/
def ResNet : Elem α → Prop
  | .R .. | .I .. => True
  | _ => False

/-- power taken by a resistor (spec) -/
def dissipated (x : Vec α) : Elem α → α
  | .R _ n1 n2 r => (x n1 - x n2) * (x n1 - x n2) / r
  | _ => 0

/-- current through a resistor -/
def rcur (x : Vec α) : Elem α → α
  | .R _ n1 n2 r => (x n1 - x n2) / r
  | _ => 0

theorem ResNet.vdes {circ : List (Elem α)} (h : ∀ e ∈ circ, ResNet e) : vdes circ = [] := by
  unfold Circuit.vdes
  rw [List.filter_eq_nil_iff]
  intro e he
  have := h e he
  cases e <;> simp [ResNet] at this <;> simp [Elem.vde]

theorem resnet_row {nv : Nat} {circ : List (Elem α)} {s : Sys α}
    (hr : ∀ e ∈ circ, ResNet e) (he : ∀ e ∈ circ, NodesLt nv e)
    (h : generate circ nv = .ok s) (x : Vec α) (r : Nat) (hlt : r < nv) :
    mulVec s.size s.M x r = (circ.map (fun e => inj (term e).1 (term e).2 (rcur x e) r)).sum := by
  have hp : ∀ e ∈ circ, Proper e := by
    intro e hm
    have := hr e hm
    cases e <;> simp [ResNet] at this <;> trivial
  have hu : UniqueVde circ := by unfold UniqueVde; rw [ResNet.vdes hr]; exact List.nodup_nil
  have h1 := C07_node_rows he hp h x r hlt
  have h0 := C07_node_rows he hp h (fun _ => 0) r hlt
  rw [kcl_eq_sum hu] at h1 h0
  have hz : mulVec s.size s.M (fun _ => 0) r = 0 := by simp [mulVec]
  rw [hz, zero_add] at h0
  rw [← add_right_cancel_iff (a := s.N r), h1, h0, ← List.sum_map_add]
  congr 1
  apply List.map_congr_left
  intro e hm
  have := hr e hm
  cases e <;> simp [ResNet] at this
  · simp only [currentN, current, rcur, inj]; split_ifs <;> ring
  · simp only [currentN, current, rcur, inj]; split_ifs <;> ring

theorem sum_inj {nv : Nat} (x : Vec α) (n1 n2 : Nat) (i : α) (h1 : n1 < nv) (h2 : n2 < nv) :
    ∑ r ∈ Finset.range nv, x r * inj n1 n2 i r = (x n1 - x n2) * i := by
  simp only [inj, mul_sub, Finset.sum_sub_distrib, mul_ite, mul_zero, Finset.sum_ite_eq',
    Finset.mem_range, h1, h2, if_true]
  ring

/-- C66: the quadratic form of the assembled matrix is the total power dissipated in the
resistors. -/
theorem C66_quadratic_form {nv : Nat} {circ : List (Elem α)} {s : Sys α}
    (hr : ∀ e ∈ circ, ResNet e) (he : ∀ e ∈ circ, NodesLt nv e)
    (h : generate circ nv = .ok s) (x : Vec α) :
    ∑ r ∈ Finset.range nv, x r * mulVec s.size s.M x r = (circ.map (dissipated x)).sum := by
  rw [Finset.sum_congr rfl (fun r hm => by
    rw [resnet_row hr he h x r (Finset.mem_range.mp hm)])]
  have : ∀ l : List (Elem α), (∀ e ∈ l, ResNet e) → (∀ e ∈ l, NodesLt nv e) →
      ∑ r ∈ Finset.range nv, x r * (l.map (fun e => inj (term e).1 (term e).2 (rcur x e) r)).sum =
        (l.map (dissipated x)).sum := by
    intro l
    induction l with
    | nil => intros; simp
    | cons e t ih =>
      intro hl hn
      simp only [List.map_cons, List.sum_cons, mul_add, Finset.sum_add_distrib]
      rw [ih (fun e' h' => hl e' (List.mem_cons_of_mem _ h'))
        (fun e' h' => hn e' (List.mem_cons_of_mem _ h'))]
      congr 1
      have h1 := hl e (List.mem_cons_self ..)
      have h2 := hn e (List.mem_cons_self ..)
      cases e <;> simp only [ResNet] at h1 <;> simp only [term]
      · rw [sum_inj x _ _ _ h2.1 h2.2]; simp only [rcur, dissipated]; ring
      · rw [sum_inj x _ _ _ h2.1 h2.2]; simp only [rcur, dissipated]; ring
  exact this circ hr he

/-- C66: the assembled matrix of a network of resistors and current sources is symmetric. -/
theorem C66_symmetric {nv : Nat} {circ : List (Elem α)} {s : Sys α}
    (hr : ∀ e ∈ circ, ResNet e) (he : ∀ e ∈ circ, NodesLt nv e)
    (h : generate circ nv = .ok s) (i j : Nat) (hi : i < nv) (hj : j < nv) :
    s.M i j = s.M j i := by
  have hp : ∀ e ∈ circ, Proper e := by
    intro e hm
    have := hr e hm
    cases e <;> simp [ResNet] at this <;> trivial
  have hz : s.size = nv := by
    rw [(generate_row (fun _ => 0) he hp h).1, ResNet.vdes hr]; simp
  have hcol : ∀ r c, r < nv → c < nv → s.M r c =
      (circ.map (fun e => inj (term e).1 (term e).2 (rcur (fun k => if k = c then 1 else 0) e) r)).sum := by
    intro r c hr' hc
    rw [← resnet_row hr he h _ r hr', mulVec, hz]
    simp [hc]
  rw [hcol i j hi hj, hcol j i hj hi]
  congr 1
  apply List.map_congr_left
  intro e hm
  have := hr e hm
  cases e with
  | R id n1 n2 v =>
    simp only [term, rcur, inj]
    simp only [@eq_comm _ n1, @eq_comm _ n2]
    split_ifs <;> ring
  | I => simp [rcur, inj]
  | _ => simp [ResNet] at this

variable [LinearOrder α] [IsStrictOrderedRing α]

/-- all resistances are positive -/
def PosR : Elem α → Prop
  | .R _ _ _ r => 0 < r
  | _ => True

theorem dissipated_nonneg (x : Vec α) {e : Elem α} (h : PosR e) : 0 ≤ dissipated x e := by
  cases e <;> simp only [dissipated, PosR, le_refl] at h ⊢
  exact div_nonneg (mul_self_nonneg _) h.le

theorem sum_nonneg' {ι : Type} (l : List ι) (f : ι → α) (h : ∀ e ∈ l, 0 ≤ f e) :
    0 ≤ (l.map f).sum := by
  induction l with
  | nil => simp
  | cons e t ih =>
    rw [List.map_cons, List.sum_cons]
    exact add_nonneg (h e (List.mem_cons_self ..)) (ih fun e' h' => h e' (List.mem_cons_of_mem _ h'))

theorem sum_eq_zero' {ι : Type} (l : List ι) (f : ι → α) (h : ∀ e ∈ l, 0 ≤ f e)
    (hz : (l.map f).sum = 0) : ∀ e ∈ l, f e = 0 := by
  induction l with
  | nil => simp
  | cons e t ih =>
    rw [List.map_cons, List.sum_cons] at hz
    have h1 := h e (List.mem_cons_self ..)
    have h2 := sum_nonneg' t f (fun e' h' => h e' (List.mem_cons_of_mem _ h'))
    intro e' he'
    rcases List.mem_cons.mp he' with rfl | ht
    · linarith
    · exact ih (fun e' h' => h e' (List.mem_cons_of_mem _ h')) (by linarith) e' ht

/-- C66: a network of positive resistors never produces power. -/
theorem C66_passive {nv : Nat} {circ : List (Elem α)} {s : Sys α}
    (hr : ∀ e ∈ circ, ResNet e) (he : ∀ e ∈ circ, NodesLt nv e) (hpos : ∀ e ∈ circ, PosR e)
    (h : generate circ nv = .ok s) (x : Vec α) :
    0 ≤ ∑ r ∈ Finset.range nv, x r * mulVec s.size s.M x r := by
  rw [C66_quadratic_form hr he h]
  exact sum_nonneg' _ _ (fun e hm => dissipated_nonneg x (hpos e hm))

/-! ### C65 -/

/-- two nodes are joined by a resistor -/
def Joined (circ : List (Elem α)) (a b : Nat) : Prop :=
  ∃ id r, Elem.R id a b r ∈ circ ∨ Elem.R id b a r ∈ circ

/-- every node reaches the reference through resistors -/
def Grounded (circ : List (Elem α)) (nv : Nat) : Prop :=
  ∀ n, n < nv → Relation.ReflTransGen (Joined circ) n 0

/-- the reduced system matrix with `gmin` on the diagonal
(`remove_row_and_col` and `build_gmin_matrix`) -/
def reduced (s : Sys α) (m : Nat) (gmin : α) : Matrix (Fin m) (Fin m) α :=
  fun i j => s.M (i + 1) (j + 1) + gminMatrix (m + 1) gmin i j

/-- node voltages with the reference at zero -/
def ext {m : Nat} (v : Fin m → α) : Vec α
  | 0 => 0
  | k + 1 => if h : k < m then v ⟨k, h⟩ else 0

theorem sum_ext {m : Nat} (v : Fin m → α) (f : Nat → α) :
    ∑ r ∈ Finset.range (m + 1), ext v r * f r = ∑ i : Fin m, v i * f (i + 1) := by
  rw [Finset.sum_range_succ']
  simp only [ext, zero_mul, add_zero]
  rw [Finset.sum_range]
  apply Finset.sum_congr rfl
  intro i _
  simp

theorem ext_ground {circ : List (Elem α)} {nv : Nat} (x : Vec α) (h0 : x 0 = 0)
    (hpos : ∀ e ∈ circ, PosR e) (hg : Grounded circ nv) (hz : ∀ e ∈ circ, dissipated x e = 0)
    (n : Nat) (hn : n < nv) : x n = 0 := by
  have hj : ∀ a b, Joined circ a b → x a = x b := by
    rintro a b ⟨id, r, h | h⟩
    all_goals
      have h1 := hz _ h
      have h2 := hpos _ h
      simp only [dissipated, PosR] at h1 h2
      rcases (div_eq_zero_iff.mp h1) with h3 | h3
      · have := mul_self_eq_zero.mp h3
        linarith
      · exact absurd h3 h2.ne'
  have : ∀ a b, Relation.ReflTransGen (Joined circ) a b → x a = x b := by
    intro a b hab
    induction hab with
    | refl => rfl
    | tail _ hbc ih => rw [ih, hj _ _ hbc]
  rw [this n 0 (hg n hn), h0]

/-- C65: in a network of positive resistors where every node reaches the reference through
resistors, the quadratic form of the reduced matrix is positive definite, with any
non-negative Gmin. -/
theorem C65_positive_definite {m : Nat} {circ : List (Elem α)} {s : Sys α} {gmin : α}
    (hr : ∀ e ∈ circ, ResNet e) (he : ∀ e ∈ circ, NodesLt (m + 1) e) (hpos : ∀ e ∈ circ, PosR e)
    (hg : Grounded circ (m + 1)) (hgm : 0 ≤ gmin)
    (h : generate circ (m + 1) = .ok s) (v : Fin m → α) (hv : v ≠ 0) :
    0 < ∑ i, v i * (reduced s m gmin).mulVec v i := by
  have hp : ∀ e ∈ circ, Proper e := by
    intro e hm
    have := hr e hm
    cases e <;> simp [ResNet] at this <;> trivial
  have hsz : s.size = m + 1 := by
    rw [(generate_row (fun _ => 0) he hp h).1, ResNet.vdes hr]; simp
  have hmul : ∀ i : Fin m, (reduced s m gmin).mulVec v i =
      mulVec s.size s.M (ext v) (i + 1) + gmin * v i := by
    intro i
    simp only [Matrix.mulVec, dotProduct, reduced, add_mul, Finset.sum_add_distrib]
    congr 1
    · rw [mulVec, hsz]
      have := sum_ext v (fun c => s.M (i + 1) c)
      simp only [mul_comm (ext v _)] at this
      rw [this]
      exact Finset.sum_congr rfl (fun j _ => mul_comm _ _)
    · rw [Finset.sum_eq_single i]
      · rw [C12_gmin_matrix]; simp
      · intro j _ hne
        rw [C12_gmin_matrix, if_neg (fun hh => hne (Fin.ext hh.1.symm)), zero_mul]
      · simp
  have hq : ∑ i, v i * (reduced s m gmin).mulVec v i =
      (circ.map (dissipated (ext v))).sum + gmin * ∑ i, v i * v i := by
    rw [← C66_quadratic_form hr he h (ext v), sum_ext v (fun r => mulVec s.size s.M (ext v) r),
      Finset.mul_sum, ← Finset.sum_add_distrib]
    apply Finset.sum_congr rfl
    intro i _
    rw [hmul]; ring
  have hd := sum_nonneg' circ _ (fun e hm => dissipated_nonneg (ext v) (hpos e hm))
  have hs : 0 ≤ gmin * ∑ i, v i * v i :=
    mul_nonneg hgm (Finset.sum_nonneg fun i _ => mul_self_nonneg _)
  rw [hq]
  rcases (add_nonneg hd hs).lt_or_eq with hlt | heq
  · exact hlt
  · exfalso
    have hz : (circ.map (dissipated (ext v))).sum = 0 := by linarith
    have hall := sum_eq_zero' circ _ (fun e hm => dissipated_nonneg (ext v) (hpos e hm)) hz
    apply hv
    funext i
    have := ext_ground (ext v) rfl hpos hg hall (i + 1) (by omega)
    simpa [ext] using this

/-- C65: the operating point of a grounded network of positive resistors exists and is
unique, whatever the current sources are. -/
theorem C65_unique_operating_point {m : Nat} {circ : List (Elem α)} {s : Sys α} {gmin : α}
    (hr : ∀ e ∈ circ, ResNet e) (he : ∀ e ∈ circ, NodesLt (m + 1) e) (hpos : ∀ e ∈ circ, PosR e)
    (hg : Grounded circ (m + 1)) (hgm : 0 ≤ gmin)
    (h : generate circ (m + 1) = .ok s) (b : Fin m → α) :
    ∃! v : Fin m → α, ∀ i, (reduced s m gmin).mulVec v i + b i = 0 := by
  have hinj : Function.Injective (reduced s m gmin).mulVec := by
    intro u w huw
    by_contra hne
    have hne' : u - w ≠ 0 := sub_ne_zero.mpr hne
    have := C65_positive_definite hr he hpos hg hgm h (u - w) hne'
    rw [Matrix.mulVec_sub, huw, sub_self] at this
    simp at this
  have hunit := Matrix.mulVec_injective_iff_isUnit.mp hinj
  have hsurj := Matrix.mulVec_surjective_iff_isUnit.mpr hunit
  obtain ⟨v, hv⟩ := hsurj (-b)
  refine ⟨v, fun i => by rw [hv]; simp, fun w hw => hinj ?_⟩
  rw [hv]
  funext i
  exact eq_neg_of_add_eq_zero_left (hw i)

/-- a bridge of five resistors with a current source -/
def bridge : List (Elem ℚ) :=
  [.R "R1" 1 2 1, .R "R2" 2 0 2, .R "R3" 1 3 3, .R "R4" 3 0 4, .R "R5" 2 3 5,
   .I "I1" 0 1 { dc := some 1 }]

example : (∀ e ∈ bridge, ResNet e) ∧ (∀ e ∈ bridge, NodesLt 4 e) ∧ (∀ e ∈ bridge, PosR e) := by
  simp [bridge, ResNet, NodesLt, PosR]
example : (generate bridge 4).toOption.isSome := by decide +kernel
example : Grounded bridge 4 := by
  intro n hn
  have h20 : Relation.ReflTransGen (Joined bridge) 2 0 :=
    .single ⟨"R2", 2, .inl (by simp [bridge])⟩
  have h30 : Relation.ReflTransGen (Joined bridge) 3 0 :=
    .single ⟨"R4", 4, .inl (by simp [bridge])⟩
  interval_cases n
  · exact .refl
  · exact .head ⟨"R1", 1, .inl (by simp [bridge])⟩ h20
  · exact h20
  · exact h30

end Verif.Mna
