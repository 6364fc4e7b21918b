import Verif.Props.Laws
import Mathlib.Tactic.LinearCombination

/-!
Property C171, continued: stars and triangles of resistors, voltage sources in series.
-/

namespace Verif.Laws
open Verif.Circuit Verif.Mna Verif.Rename
open Verif.Bound (sysOf)

variable {K : Type} [Field K] [LinearOrder K] [IsStrictOrderedRing K]
variable {C : List (Elem K)} {nv m m' : Nat} {s s' : Sys K} {gmin : K} {o : Op.OOpts K}

omit [LinearOrder K] [IsStrictOrderedRing K] in
/-- the current of a branch of a star, from the currents of the triangle -/
theorem star_cur {x y z P : K} (hx : x ≠ 0) (hP : P ≠ 0) (h : P = x * y + y * z + z * x) (va vb vc : K) :
    (va - (y * z * va + z * x * vb + x * y * vc) / P) / x = (va - vb) / (P / z) - (vc - va) / (P / y) := by
  field_simp
  linear_combination va * h

/-- C171: a triangle of resistors may be replaced by a star; the voltage of its centre is the mean of those of the corners, weighed with
the conductances. -/
theorem C171_star (ho : Op.Plain o) (hstd : o.meth.std = true) {a b c : Nat} {ra rb rc : K} {ida idb idc id1 id2 id3 : String}
    (ga : ra ≠ 0) (gb : rb ≠ 0) (gc : rc ≠ 0) (hp : ra * rb + rb * rc + rc * ra ≠ 0) (hC : ∀ e ∈ C, NodesLt nv e)
    (hA : Ready (C ++ [.R ida b c ((ra * rb + rb * rc + rc * ra) / ra), .R idb c a ((ra * rb + rb * rc + rc * ra) / rb),
      .R idc a b ((ra * rb + rb * rc + rc * ra) / rc)]) nv m s gmin)
    (hB : Ready (C ++ [.R id1 a nv ra, .R id2 b nv rb, .R id3 c nv rc]) (nv + 1) m' s' gmin) :
    ∃ v v' i, Reports o gmin (C ++ [.R ida b c ((ra * rb + rb * rc + rc * ra) / ra), .R idb c a ((ra * rb + rb * rc + rc * ra) / rb),
        .R idc a b ((ra * rb + rb * rc + rc * ra) / rc)]) nv m s v i ∧
      Reports o gmin (C ++ [.R id1 a nv ra, .R id2 b nv rb, .R id3 c nv rc]) (nv + 1) m' s' v' i ∧ SameOn C nv v v' i i ∧
      v' nv * (1 / ra + 1 / rb + 1 / rc) = v a / ra + v b / rb + v c / rc := by
  obtain ⟨⟨v, i, q, o1⟩, -⟩ := C171_reports hA ho hstd
  have hc : c < nv := (hA.nodes (.R ida b c ((ra * rb + rb * rc + rc * ra) / ra)) (by simp)).2
  have hn : NodesLt nv (.R idc a b ((ra * rb + rb * rc + rc * ra) / rc)) := hA.nodes _ (by simp)
  have ha : a < nv := hn.1
  have hb : b < nv := hn.2
  set vn := (rb * rc * v a + rc * ra * v b + ra * rb * v c) / (ra * rb + rb * rc + rc * ra) with hvn
  have u : ∀ x, x < nv → Function.update v nv vn x = v x := fun x hx => Function.update_of_ne (by omega) _ _
  have e1 := star_cur (y := rb) (z := rc) ga hp rfl (v a) (v b) (v c)
  have e2 := star_cur (y := rc) (z := ra) gb (P := ra * rb + rb * rc + rc * ra) hp (by ring) (v b) (v c) (v a)
  have e3 := star_cur (y := ra) (z := rb) gc (P := ra * rb + rb * rc + rc * ra) hp (by ring) (v c) (v a) (v b)
  rw [show rc * ra * v b + ra * rb * v c + rb * rc * v a = rb * rc * v a + rc * ra * v b + ra * rb * v c by ring] at e2
  rw [show ra * rb * v c + rb * rc * v a + rc * ra * v b = rb * rc * v a + rc * ra * v b + ra * rb * v c by ring] at e3
  rw [← hvn] at e1 e2 e3
  have o2 : Obeys (C ++ [.R id1 a nv ra, .R id2 b nv rb, .R id3 c nv rc]) (nv + 1) 1 (Function.update v nv vn) i := by
    refine replace hA.pos le_rfl hC o1 u (fun _ _ _ => rfl) (fun _ _ _ _ _ _ _ _ => rfl) (fun r h0 hr => ?_) (fun r h0 hr => ?_)
      (fun e hm hv => ?_)
    · simp only [leaving, List.map_cons, List.map_nil, List.sum_cons, List.sum_nil, add_zero, cur, term, inj, u a ha, u b hb, u c hc,
        Function.update_self]
      have : r ≠ nv := by omega
      simp only [this, if_false]
      rw [e1, e2, e3]
      rcases Classical.propComplete (r = a) with k1 | k1 <;> rcases Classical.propComplete (r = b) with k2 | k2 <;>
        rcases Classical.propComplete (r = c) with k3 | k3 <;> simp only [k1, k2, k3, if_true, if_false] <;> ring
    · have : r = nv := by omega
      subst this
      simp only [leaving, List.map_cons, List.map_nil, List.sum_cons, List.sum_nil, add_zero, cur, term, inj, u a ha, u b hb, u c hc,
        Function.update_self]
      have f1 : ¬ r = a := by omega
      have f2 : ¬ r = b := by omega
      have f3 : ¬ r = c := by omega
      rw [e1, e2, e3]
      simp only [f1, f2, f3, if_false, if_true]
      ring
    · simp only [List.mem_cons, List.not_mem_nil, or_false] at hm
      rcases hm with rfl | rfl | rfl <;> simp [Elem.vde] at hv
  refine ⟨v, _, i, q, (C171_reports hB ho hstd).2 _ _ o2, ⟨u, fun _ _ _ => rfl⟩, ?_⟩
  have : v a / ra + v b / rb + v c / rc - vn * (1 / ra + 1 / rb + 1 / rc) = (v a - vn) / ra + (v b - vn) / rb + (v c - vn) / rc := by
    ring
  rw [Function.update_self, ← sub_eq_zero, ← neg_eq_zero, neg_sub, this, e1, e2, e3]
  ring

/-- C171: two voltage sources in series are one with the sum of the voltages. -/
theorem C171_stacked (ho : Op.Plain o) (hstd : o.meth.std = true) {a b : Nat} {vid vid1 vid2 : String} {u u1 u2 : Src K}
    (hs : staticVal u = staticVal u1 + staticVal u2) (hC : ∀ e ∈ C, NodesLt nv e) (hc : ∀ e ∈ C, CtrlExists C e)
    (hA : Ready (C ++ [.V vid a b u]) nv m s gmin)
    (hB : Ready (C ++ [.V vid1 a nv u1, .V vid2 nv b u2]) (nv + 1) m' s' gmin) :
    ∃ v v' i i', Reports o gmin (C ++ [.V vid a b u]) nv m s v i ∧
      Reports o gmin (C ++ [.V vid1 a nv u1, .V vid2 nv b u2]) (nv + 1) m' s' v' i' ∧ SameOn C nv v v' i i' ∧
      i' (upper vid1) = i (upper vid) ∧ i' (upper vid2) = i (upper vid) ∧ v' nv = v b + staticVal u2 := by
  obtain ⟨⟨v, i, q, o1⟩, -⟩ := C171_reports hA ho hstd
  have hn : NodesLt nv (.V vid a b u) := hA.nodes _ (by simp)
  have ha : a < nv := hn.1
  have hb : b < nv := hn.2
  have hne : upper vid1 ≠ upper vid2 := by
    have := hB.unique
    unfold UniqueVde vdes at this
    rw [List.filter_append, List.map_append, List.nodup_append] at this
    have h := this.2.1
    simp [List.filter, Elem.vde, Elem.id] at h
    exact h
  have f1 := fresh (e := .V vid1 a nv u1) hB.unique (by simp) rfl
  have f2 := fresh (e := .V vid2 nv b u2) hB.unique (by simp) rfl
  have g1 := fresh_src (e := .V vid1 a nv u1) hB.unique (by simp) rfl hc
  have g2 := fresh_src (e := .V vid2 nv b u2) hB.unique (by simp) rfl hc
  set i' := Function.update (Function.update i (upper vid1) (i (upper vid))) (upper vid2) (i (upper vid)) with hi'
  have n1 : i' (upper vid1) = i (upper vid) := by rw [hi', Function.update_of_ne hne, Function.update_self]
  have n2 : i' (upper vid2) = i (upper vid) := by rw [hi', Function.update_self]
  have k : ∀ w, w ≠ upper vid1 → w ≠ upper vid2 → i' w = i w := fun w h1 h2 => by
    rw [hi', Function.update_of_ne h2, Function.update_of_ne h1]
  have hl := o1.branch (.V vid a b u) (by simp) rfl
  have hu : ∀ x, x < nv → Function.update v nv (v b + staticVal u2) x = v x := fun x hx => Function.update_of_ne (by omega) _ _
  have o2 : Obeys (C ++ [.V vid1 a nv u1, .V vid2 nv b u2]) (nv + 1) 1 (Function.update v nv (v b + staticVal u2)) i' := by
    refine replace hA.pos le_rfl hC o1 hu (fun e hm hv => k _ (f1 e hm hv) (f2 e hm hv))
      (fun e hm id a b src kk hh => k _ (g1 e hm id a b src kk hh) (g2 e hm id a b src kk hh)) (fun r h0 hr => ?_) (fun r h0 hr => ?_)
      (fun e hm hv => ?_)
    · simp only [leaving, List.map_cons, List.map_nil, List.sum_cons, List.sum_nil, add_zero, cur, term, inj, n1, n2]
      have : r ≠ nv := by omega
      rcases Classical.propComplete (r = a) with k1 | k1 <;> rcases Classical.propComplete (r = b) with k2 | k2 <;>
        simp only [k1, k2, this, if_true, if_false] <;> ring
    · have : r = nv := by omega
      subst this
      simp only [leaving, List.map_cons, List.map_nil, List.sum_cons, List.sum_nil, add_zero, cur, term, inj, n1, n2]
      have e1 : ¬ r = a := by omega
      have e2 : ¬ r = b := by omega
      simp [e1, e2]
    · simp only [List.mem_cons, List.not_mem_nil, or_false] at hm
      simp only [lawOf] at hl
      rcases hm with rfl | rfl
      · simp only [lawOf, Function.update_self, hu a ha]
        linear_combination hl + hs
      · simp only [lawOf, Function.update_self, hu b hb]
        ring
  exact ⟨v, _, i, i', q, (C171_reports hB ho hstd).2 _ _ o2, ⟨hu, fun e hm hv => k _ (f1 e hm hv) (f2 e hm hv)⟩, n1, n2,
    Function.update_self ..⟩

/-- hypotheses of `C171_star`: a triangle of 3 Ω and a star of 1 Ω, beside a load at one of the corners -/
def corner : List (Elem ℚ) := [.I "I1" 0 1 { dc := some 3 }, .R "R9" 2 0 1]
def delta : List (Elem ℚ) := corner ++ [.R "RA" 2 0 ((1 * 1 + 1 * 1 + 1 * 1) / 1), .R "RB" 0 1 ((1 * 1 + 1 * 1 + 1 * 1) / 1),
  .R "RC" 1 2 ((1 * 1 + 1 * 1 + 1 * 1) / 1)]
def wye : List (Elem ℚ) := corner ++ [.R "R1" 1 3 1, .R "R2" 2 3 1, .R "R3" 0 3 1]

example : (∀ e ∈ corner, NodesLt 3 e) ∧ Ready delta 3 2 (sysOf delta 3) (1 / 1000) ∧ Ready wye 4 3 (sysOf wye 4) (1 / 1000) := by
  refine ⟨by simp [corner, NodesLt], ?_, ?_⟩
  · exact ⟨by decide, by unfold UniqueVde; decide +kernel, by simp [delta, corner, NodesLt], by simp [delta, corner, Proper], rfl, rfl,
      by simp only [Matrix.det_fin_two]; decide +kernel, by simp only [Matrix.det_fin_two]; decide +kernel⟩
  · exact ⟨by decide, by unfold UniqueVde; decide +kernel, by simp [wye, corner, NodesLt], by simp [wye, corner, Proper], rfl, rfl,
      by simp only [Matrix.det_fin_three]; decide +kernel, by simp only [Matrix.det_fin_three]; decide +kernel⟩

/-- hypotheses of `C171_stacked`: 3 V as 1 V on top of 2 V -/
def one : List (Elem ℚ) := rest ++ [.V "V1" 1 0 { dc := some 3 }]
def two : List (Elem ℚ) := rest ++ [.V "VA" 1 2 { dc := some 1 }, .V "VB" 2 0 { dc := some 2 }]

example : staticVal ({ dc := some 3 } : Src ℚ) = staticVal ({ dc := some 1 } : Src ℚ) + staticVal ({ dc := some 2 } : Src ℚ) ∧
    (∀ e ∈ rest, NodesLt 2 e) ∧ (∀ e ∈ rest, CtrlExists rest e) ∧ Ready one 2 2 (sysOf one 2) (1 / 1000) ∧
    Ready two 3 4 (sysOf two 3) (1 / 1000) := by
  refine ⟨by norm_num [staticVal], by simp [rest, NodesLt], by simp [rest, CtrlExists], ?_, ?_⟩
  · exact ⟨by decide, by unfold UniqueVde; decide +kernel, by simp [one, rest, NodesLt], by simp [one, rest, Proper], rfl, rfl,
      by simp only [Matrix.det_fin_two]; decide +kernel, by simp only [Matrix.det_fin_two]; decide +kernel⟩
  · exact ⟨by decide, by unfold UniqueVde; decide +kernel, by simp [two, rest, NodesLt], by simp [two, rest, Proper], rfl, rfl,
      by rw [Matrix.det_succ_row_zero]; simp only [Matrix.det_fin_three]; decide +kernel,
      by rw [Matrix.det_succ_row_zero]; simp only [Matrix.det_fin_three]; decide +kernel⟩

end Verif.Laws
