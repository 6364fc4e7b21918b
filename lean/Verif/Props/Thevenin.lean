import Verif.Props.Laws

/-!
C188: Thevenin's theorem. Whatever is connected to two nodes of a linear circuit finds a source with an inner resistance.
-/

namespace Verif.Thevenin
open Verif.Circuit Verif.Mna Verif.Rename Verif.Laws Verif.Rlc

section Field
variable {K : Type} [Field K]

theorem cur_lin (c t t' : K) (v v' : Nat → K) (i i' : List Char → K) (e : Elem K) :
    cur (t + c * t') (fun r => v r + c * v' r) (fun w => i w + c * i' w) e = cur t v i e + c * cur t' v' i' e := by
  cases e <;> simp only [cur] <;> ring

theorem leaving_lin (c t t' : K) (v v' : Nat → K) (i i' : List Char → K) (A : List (Elem K)) (r : Nat) :
    leaving (t + c * t') (fun r => v r + c * v' r) (fun w => i w + c * i' w) A r = leaving t v i A r + c * leaving t' v' i' A r := by
  unfold leaving
  rw [← List.sum_map_mul_left, ← List.sum_map_add]
  congr 1
  apply List.map_congr_left
  intro e _
  rw [cur_lin, inj_affine]

theorem law_lin (c t t' : K) (v v' : Nat → K) (i i' : List Char → K) (e : Elem K) :
    lawOf (t + c * t') (fun r => v r + c * v' r) (fun w => i w + c * i' w) e = lawOf t v i e + c * lawOf t' v' i' e := by
  cases e <;> simp only [lawOf] <;> (try split_ifs) <;> ring

/-- the load is connected to the two nodes and, for the rest, to nodes of its own -/
def Hangs (a b nv nB : Nat) (e : Elem K) : Prop :=
  ((term e).1 = a ∨ (term e).1 = b ∨ nv ≤ (term e).1 ∧ (term e).1 < nB) ∧
  ((term e).2 = a ∨ (term e).2 = b ∨ nv ≤ (term e).2 ∧ (term e).2 < nB)

/-- the current that enters the load at the first node leaves it at the second -/
theorem load_current {C B : List (Elem K)} {nv nB a b : Nat} (hnv : 0 < nv) (hle : nv ≤ nB) (hab : a ≠ b) (ha : a < nv) (hb : b < nv)
    (hC : ∀ e ∈ C, NodesLt nv e) (hB : ∀ e ∈ B, Hangs a b nv nB e) {t : K} {v : Nat → K} {i : List Char → K}
    (h : Obeys (C ++ B) nB t v i) (r : Nat) (hr : r < nv) : leaving t v i B r = inj a b (leaving t v i B a) r := by
  have lt : ∀ e ∈ B, (term e).1 < nB ∧ (term e).2 < nB := fun e he => by
    have := hB e he
    unfold Hangs at this
    omega
  have total : ∀ l : List (Elem K), (∀ e ∈ l, (term e).1 < nB ∧ (term e).2 < nB) → ∑ r ∈ Finset.range nB, leaving t v i l r = 0 := by
    intro l
    induction l with
    | nil => intro _; simp [leaving]
    | cons e l ih =>
      intro hl
      have e1 : ∀ r, leaving t v i (e :: l) r = inj (term e).1 (term e).2 (cur t v i e) r + leaving t v i l r := fun r => by
        simp [leaving]
      have h1 := hl e (List.mem_cons_self ..)
      have h2 := sum_inj (fun _ => (1 : K)) (term e).1 (term e).2 (cur t v i e) h1.1 h1.2
      simp only [one_mul, sub_self, zero_mul] at h2
      simp only [e1, Finset.sum_add_distrib, h2, ih fun e' h' => hl e' (List.mem_cons_of_mem _ h'), add_zero]
  have zero : ∀ r, r < nB → r ≠ a → r ≠ b → leaving t v i B r = 0 := by
    intro r hr h1 h2
    by_cases hn : r < nv
    · refine Mna.sum_zero_of _ _ fun e he => ?_
      have := hB e he
      unfold Hangs at this
      exact inj_other (by omega) (by omega) _
    · have h3 := h.node r (by omega) hr
      rw [leaving_append, leaving_new t v i hC hnv r (by omega), zero_add] at h3
      exact h3
  have pair : leaving t v i B a + leaving t v i B b = 0 := by
    have := total B lt
    rw [← Finset.sum_subset (s₁ := {a, b}) (by intro x hx; simp at hx ⊢; omega) (fun x hx hx' => by
      simp at hx'
      exact zero x (Finset.mem_range.1 hx) hx'.1 hx'.2), Finset.sum_pair hab] at this
    exact this
  by_cases h1 : r = a
  · subst h1
    simp [inj, hab]
  · by_cases h2 : r = b
    · subst h2
      simp only [inj, if_neg h1, if_pos]
      linear_combination pair
    · rw [zero r (by omega) h1 h2, inj_other h1 h2]
end Field

section Ordered
variable {K : Type} [Field K] [LinearOrder K] [IsStrictOrderedRing K] {C B : List (Elem K)} {nv m m' m'' nB : Nat} {s s' s'' : Sys K}
  {gmin : K} {o : Op.OOpts K}

/-- the circuit with a load is the circuit without, moved by the current of the load -/
theorem port (hA : Ready C nv m s gmin) (hle : nv ≤ nB) {a b : Nat} (hab : a ≠ b) (ha : a < nv) (hb : b < nv)
    (hB : ∀ e ∈ B, Hangs a b nv nB e) {iid : String} {w : Src K} (hw : staticVal w ≠ 0)
    {v0 v1 v : Nat → K} {i0 i1 i : List Char → K} (h0 : Obeys C nv 1 v0 i0) (h1 : Obeys (C ++ [.I iid a b w]) nv 1 v1 i1)
    (h : Obeys (C ++ B) nB 1 v i) :
    (∀ r < nv, v r = v0 r + leaving 1 v i B a / staticVal w * (v1 r - v0 r)) ∧
    ∀ e ∈ C, e.vde = true → i (upper e.id) = i0 (upper e.id) + leaving 1 v i B a / staticVal w * (i1 (upper e.id) - i0 (upper e.id)) := by
  set k := leaving 1 v i B a / staticVal w with hk
  have hom : Obeys C nv 0 (fun r => (v r + (-1) * v0 r) + (-k) * (v1 r + (-1) * v0 r))
      (fun w => (i w + (-1) * i0 w) + (-k) * (i1 w + (-1) * i0 w)) := by
    have ht : (0 : K) = (1 + (-1) * 1) + (-k) * (1 + (-1) * 1) := by ring
    refine ⟨?_, fun r hr0 hr => ?_, fun e he hv => ?_⟩
    · simp only [h.ground, h0.ground, h1.ground]
      ring
    · rw [ht, leaving_lin (-k) (1 + (-1) * 1) (1 + (-1) * 1) (fun r => v r + (-1) * v0 r) (fun r => v1 r + (-1) * v0 r)
        (fun w => i w + (-1) * i0 w) (fun w => i1 w + (-1) * i0 w), leaving_lin, leaving_lin, h0.node r hr0 hr]
      have e1 := h1.node r hr0 hr
      have e2 := h.node r hr0 (by omega)
      rw [leaving_append] at e1 e2
      rw [load_current hA.pos hle hab ha hb hA.nodes hB h r hr] at e2
      have e3 : leaving 1 v1 i1 [.I iid a b w] r = inj a b (staticVal w) r := by
        simp [leaving, term, cur]
      rw [e3] at e1
      have e4 : inj a b (leaving 1 v i B a) r = k * inj a b (staticVal w) r := by
        have : leaving 1 v i B a = 0 + k * staticVal w := by rw [hk]; field_simp; ring
        rw [this, inj_affine, Laws.inj_zero, zero_add]
      rw [e4] at e2
      linear_combination e2 - k * e1
    · rw [ht, law_lin (-k) (1 + (-1) * 1) (1 + (-1) * 1) (fun r => v r + (-1) * v0 r) (fun r => v1 r + (-1) * v0 r)
        (fun w => i w + (-1) * i0 w) (fun w => i1 w + (-1) * i0 w), law_lin, law_lin, h0.branch e he hv,
        h.branch e (List.mem_append_left _ he) hv, h1.branch e (List.mem_append_left _ he) hv]
      ring
  obtain ⟨q1, q2⟩ := (C171_regular hA.pos hA.unique hA.nodes hA.proper hA.gen hA.size).1 hA.det _ _ hom
  refine ⟨fun r hr => ?_, fun e he hv => ?_⟩
  · linear_combination q1 r hr
  · linear_combination q2 e he hv

/-- the inner resistance: how far the voltage between the nodes falls per ampere drawn -/
def inner (a b : Nat) (j : K) (v0 v1 : Nat → K) : K := ((v0 a - v0 b) - (v1 a - v1 b)) / j

/-- C188: a circuit `C`, alone, with a current source between two nodes, and with any load between them (with nodes and elements of
its own): the voltage across the load is the voltage of the open circuit less the inner resistance, which the current source
measures, times the current of the load. Every other voltage and current of `C` changes in proportion to the current of the load. -/
theorem C188_port (ho : Op.Plain o) (hstd : o.meth.std = true) {a b : Nat} (hab : a ≠ b) (ha : a < nv) (hb : b < nv) (hle : nv ≤ nB)
    {iid : String} {w : Src K} (hw : staticVal w ≠ 0) (hA : Ready C nv m s gmin) (hI : Ready (C ++ [.I iid a b w]) nv m' s' gmin)
    (hL : Ready (C ++ B) nB m'' s'' gmin) (hB : ∀ e ∈ B, Hangs a b nv nB e) :
    ∃ v0 i0 v1 i1 v i, Reports o gmin C nv m s v0 i0 ∧ Reports o gmin (C ++ [.I iid a b w]) nv m' s' v1 i1 ∧
      Reports o gmin (C ++ B) nB m'' s'' v i ∧
      v a - v b = (v0 a - v0 b) - inner a b (staticVal w) v0 v1 * leaving 1 v i B a ∧
      (∀ r < nv, v r - v0 r = (leaving 1 v i B a / staticVal w) * (v1 r - v0 r)) ∧
      ∀ e ∈ C, e.vde = true → i (upper e.id) - i0 (upper e.id) = (leaving 1 v i B a / staticVal w) * (i1 (upper e.id) - i0 (upper e.id)) := by
  obtain ⟨⟨v0, i0, r0, o0⟩, -⟩ := C171_reports hA ho hstd
  obtain ⟨⟨v1, i1, r1, o1⟩, -⟩ := C171_reports hI ho hstd
  obtain ⟨⟨v, i, r, ob⟩, -⟩ := C171_reports hL ho hstd
  obtain ⟨p1, p2⟩ := port hA hle hab ha hb hB hw o0 o1 ob
  refine ⟨v0, i0, v1, i1, v, i, r0, r1, r, ?_, fun x hx => ?_, fun e he hv => ?_⟩
  · rw [p1 a ha, p1 b hb, inner]
    field_simp
    ring
  · rw [p1 x hx]; ring
  · rw [p2 e he hv]; ring

/-- C188: a resistor forms a voltage divider with the inner resistance, and takes at most the power that it takes when it equals the
inner resistance. -/
theorem C188_load (ho : Op.Plain o) (hstd : o.meth.std = true) {a b : Nat} (hab : a ≠ b) {iid rid : String} {w : Src K} {r : K}
    (hr : r ≠ 0) (hw : staticVal w ≠ 0) (hA : Ready C nv m s gmin) (hI : Ready (C ++ [.I iid a b w]) nv m' s' gmin)
    (hL : Ready (C ++ [.R rid a b r]) nv m'' s'' gmin) :
    ∃ v0 i0 v1 i1 v i, Reports o gmin C nv m s v0 i0 ∧ Reports o gmin (C ++ [.I iid a b w]) nv m' s' v1 i1 ∧
      Reports o gmin (C ++ [.R rid a b r]) nv m'' s'' v i ∧ r + inner a b (staticVal w) v0 v1 ≠ 0 ∧
      v a - v b = (v0 a - v0 b) * r / (r + inner a b (staticVal w) v0 v1) ∧
      (0 < r → 0 < inner a b (staticVal w) v0 v1 →
        (v a - v b) ^ 2 / r ≤ (v0 a - v0 b) ^ 2 / (4 * inner a b (staticVal w) v0 v1) ∧
        (r = inner a b (staticVal w) v0 v1 → (v a - v b) ^ 2 / r = (v0 a - v0 b) ^ 2 / (4 * inner a b (staticVal w) v0 v1))) := by
  have hn : NodesLt nv (.R rid a b r) := hL.nodes _ (by simp)
  simp only [NodesLt] at hn
  obtain ⟨⟨v0, i0, r0, o0⟩, -⟩ := C171_reports hA ho hstd
  obtain ⟨⟨v1, i1, r1, o1⟩, -⟩ := C171_reports hI ho hstd
  obtain ⟨⟨v, i, rl, ob⟩, -⟩ := C171_reports hL ho hstd
  have hB : ∀ e ∈ [Elem.R rid a b r], Hangs a b nv nv e := by simp [Hangs, term]
  have curr : ∀ v i, leaving 1 v i [Elem.R rid a b r] a = (v a - v b) / r := fun v i => by
    simp [leaving, term, cur, inj, hab]
  obtain ⟨p1, -⟩ := port hA le_rfl hab hn.1 hn.2 hB hw o0 o1 ob
  set R := inner a b (staticVal w) v0 v1 with hR
  have key : (v a - v b) * (r + R) = (v0 a - v0 b) * r := by
    have h1 := p1 a hn.1
    have h2 := p1 b hn.2
    rw [curr] at h1 h2
    have h3 : v a - v b = (v0 a - v0 b) - R * ((v a - v b) / r) := by
      rw [hR, inner]
      have : v a - v b = (v0 a - v0 b) + (v a - v b) / r / staticVal w * ((v1 a - v1 b) - (v0 a - v0 b)) := by
        linear_combination h1 - h2
      field_simp at this ⊢
      linear_combination this
    field_simp at h3
    linear_combination h3
  have hne : r + R ≠ 0 := by
    intro h0
    -- the change caused by the current source would be a second solution of the loaded circuit
    have hV1 : (v1 a - v1 b) - (v0 a - v0 b) = r * staticVal w := by
      have : R * staticVal w = (v0 a - v0 b) - (v1 a - v1 b) := by rw [hR, inner]; field_simp
      linear_combination this - staticVal w * h0
    have hom : Obeys (C ++ [.R rid a b r]) nv 0 (fun r => v1 r + (-1) * v0 r) (fun w => i1 w + (-1) * i0 w) := by
      have ht : (0 : K) = 1 + (-1) * 1 := by ring
      refine ⟨by simp [o0.ground, o1.ground], fun x hx0 hx => ?_, fun e he hv => ?_⟩
      · rw [leaving_append, ht, leaving_lin, o0.node x hx0 hx, ← ht]
        have e1 := o1.node x hx0 hx
        rw [leaving_append] at e1
        have e3 : leaving 1 v1 i1 [.I iid a b w] x = inj a b (staticVal w) x := by simp [leaving, term, cur]
        have e4 : leaving 0 (fun r => v1 r + (-1) * v0 r) (fun w => i1 w + (-1) * i0 w) [.R rid a b r] x = inj a b (staticVal w) x := by
          simp only [leaving, term, cur, List.map_cons, List.map_nil, List.sum_cons, List.sum_nil, add_zero]
          congr 1
          rw [div_eq_iff hr]
          linear_combination hV1
        rw [e4]
        rw [e3] at e1
        linear_combination e1
      · rcases List.mem_append.1 he with he | he
        · rw [ht, law_lin, o0.branch e he hv, o1.branch e (List.mem_append_left _ he) hv]
          ring
        · simp only [List.mem_singleton] at he
          subst he
          simp [Elem.vde] at hv
    obtain ⟨q1, -⟩ := (C171_regular hL.pos hL.unique hL.nodes hL.proper hL.gen hL.size).1 hL.det _ _ hom
    have h1 := q1 a hn.1
    have h2 := q1 b hn.2
    have : r * staticVal w = 0 := by linear_combination h1 - h2 - hV1
    rcases mul_eq_zero.1 this with h | h
    · exact hr h
    · exact hw h
  have hv : v a - v b = (v0 a - v0 b) * r / (r + R) := by rw [eq_div_iff hne]; exact key
  refine ⟨v0, i0, v1, i1, v, i, r0, r1, rl, hne, hv, fun hr0 hR0 => ⟨?_, fun heq => ?_⟩⟩
  · rw [hv, div_pow, div_div, div_le_div_iff₀ (by positivity) (by positivity)]
    nlinarith [mul_nonneg (mul_nonneg (sq_nonneg (v0 a - v0 b)) hr0.le) (sq_nonneg (r - R))]
  · rw [hR, ← heq] at hv
    rw [← heq, hv, ← two_mul]
    have := hr0.ne'
    field_simp
    norm_num

/-- C188: a voltage source draws the difference between the voltage of the open circuit and its own, over the inner resistance, which
is not zero; an ammeter (a source of 0 V) shows the current of Norton's source. -/
theorem C188_short (ho : Op.Plain o) (hstd : o.meth.std = true) {a b : Nat} (hab : a ≠ b) {iid vid : String} {w u : Src K}
    (hw : staticVal w ≠ 0) (hA : Ready C nv m s gmin) (hI : Ready (C ++ [.I iid a b w]) nv m' s' gmin)
    (hL : Ready (C ++ [.V vid a b u]) nv m'' s'' gmin) :
    ∃ v0 i0 v1 i1 v i, Reports o gmin C nv m s v0 i0 ∧ Reports o gmin (C ++ [.I iid a b w]) nv m' s' v1 i1 ∧
      Reports o gmin (C ++ [.V vid a b u]) nv m'' s'' v i ∧ inner a b (staticVal w) v0 v1 ≠ 0 ∧
      i (upper vid) = ((v0 a - v0 b) - staticVal u) / inner a b (staticVal w) v0 v1 := by
  have hn : NodesLt nv (.V vid a b u) := hL.nodes _ (by simp)
  simp only [NodesLt] at hn
  obtain ⟨⟨v0, i0, r0, o0⟩, -⟩ := C171_reports hA ho hstd
  obtain ⟨⟨v1, i1, r1, o1⟩, -⟩ := C171_reports hI ho hstd
  obtain ⟨⟨v, i, rl, ob⟩, -⟩ := C171_reports hL ho hstd
  have hB : ∀ e ∈ [Elem.V vid a b u], Hangs a b nv nv e := by simp [Hangs, term]
  have curr : ∀ v i, leaving 1 v i [Elem.V vid a b u] a = i (upper vid) := fun v i => by
    simp [leaving, term, cur, inj, hab]
  obtain ⟨p1, -⟩ := port hA le_rfl hab hn.1 hn.2 hB hw o0 o1 ob
  set R := inner a b (staticVal w) v0 v1 with hR
  have hlaw : v a - v b = staticVal u := by
    have := ob.branch (.V vid a b u) (by simp) rfl
    simp only [lawOf] at this
    linear_combination this
  have key : i (upper vid) * R = (v0 a - v0 b) - staticVal u := by
    have h1 := p1 a hn.1
    have h2 := p1 b hn.2
    rw [curr] at h1 h2
    rw [← hlaw, hR, inner]
    field_simp
    field_simp at h1 h2
    linear_combination h1 - h2
  have hne : R ≠ 0 := by
    intro h0
    have hV1 : (v1 a - v1 b) - (v0 a - v0 b) = 0 := by
      have : R * staticVal w = (v0 a - v0 b) - (v1 a - v1 b) := by rw [hR, inner]; field_simp
      rw [h0, zero_mul] at this
      linear_combination this
    have hf := fresh (e := .V vid a b u) hL.unique (by simp) rfl
    have hfs := fresh_src (e := .V vid a b u) hL.unique (by simp) rfl hA.ctrl
    have hom : Obeys (C ++ [.V vid a b u]) nv 0 (fun r => v1 r + (-1) * v0 r)
        (Function.update (fun w => i1 w + (-1) * i0 w) (upper vid) (staticVal w)) := by
      have ht : (0 : K) = 1 + (-1) * 1 := by ring
      have g1 : ∀ e ∈ C, e.vde = true → Function.update (fun w => i1 w + (-1) * i0 w) (upper vid) (staticVal w) (upper e.id) =
          i1 (upper e.id) + (-1) * i0 (upper e.id) := fun e he hv => Function.update_of_ne (hf e he hv) _ _
      have g2 : ∀ e ∈ C, ∀ id a b src k, (e = .F id a b src k ∨ e = .H id a b src k) →
          Function.update (fun w => i1 w + (-1) * i0 w) (upper vid) (staticVal w) (upper src) =
          i1 (upper src) + (-1) * i0 (upper src) := fun e he id a b src k hk => Function.update_of_ne (hfs e he id a b src k hk) _ _
      refine ⟨by simp [o0.ground, o1.ground], fun x hx0 hx => ?_, fun e he hv => ?_⟩
      · rw [leaving_append, leaving_congr 0 (i := fun w => i1 w + (-1) * i0 w) hA.nodes (fun _ _ => rfl) g1 g2, ht, leaving_lin,
          o0.node x hx0 hx, ← ht]
        have e1 := o1.node x hx0 hx
        rw [leaving_append] at e1
        have e3 : leaving 1 v1 i1 [.I iid a b w] x = inj a b (staticVal w) x := by simp [leaving, term, cur]
        have e4 : leaving 0 (fun r => v1 r + (-1) * v0 r) (Function.update (fun w => i1 w + (-1) * i0 w) (upper vid) (staticVal w))
            [.V vid a b u] x = inj a b (staticVal w) x := by
          simp [leaving, term, cur]
        rw [e4]
        rw [e3] at e1
        linear_combination e1
      · rcases List.mem_append.1 he with he | he
        · rw [law_congr 0 (hA.nodes e he) (fun _ _ => rfl) (g2 e he) (i := fun w => i1 w + (-1) * i0 w), ht, law_lin,
            o0.branch e he hv, o1.branch e (List.mem_append_left _ he) hv]
          ring
        · simp only [List.mem_singleton] at he
          subst he
          simp only [lawOf]
          linear_combination hV1
    obtain ⟨-, q2⟩ := (C171_regular hL.pos hL.unique hL.nodes hL.proper hL.gen hL.size).1 hL.det _ _ hom
    have := q2 (.V vid a b u) (by simp) rfl
    simp only [Elem.id, Function.update_self] at this
    exact hw this
  exact ⟨v0, i0, v1, i1, v, i, r0, r1, rl, hne, by rw [eq_div_iff hne]; exact key⟩
end Ordered

/-! ### Examples -/

open Verif.Bound

/-- 10 V behind 1 Ω, 1 Ω across the port, with a dependent source -/
def src : List (Elem ℚ) := [.V "V1" 2 0 { dc := some 10 }, .R "R1" 2 1 1, .R "R2" 1 0 1, .G "G1" 1 0 2 0 (1 / 5)]

/-- hypotheses of `C188_load` and `C188_short`: 2 Ω and an ammeter at the port -/
example : Ready src 3 3 (sysOf src 3) (1 / 1000) ∧
    Ready (src ++ [.I "IX" 1 0 { dc := some 1 }]) 3 3 (sysOf (src ++ [.I "IX" 1 0 { dc := some 1 }]) 3) (1 / 1000) ∧
    Ready (src ++ [.R "RL" 1 0 2]) 3 3 (sysOf (src ++ [.R "RL" 1 0 2]) 3) (1 / 1000) := by
  refine ⟨?_, ?_, ?_⟩ <;>
  exact ⟨by decide, by unfold UniqueVde; decide +kernel, by simp [src, NodesLt], by simp [src, Proper], rfl, rfl,
      by simp only [Matrix.det_fin_three]; decide +kernel, by simp only [Matrix.det_fin_three]; decide +kernel⟩

/-- the open circuit has 4 V, one ampere makes it 7/2 V: the inner resistance is 1/2 Ω, and 2 Ω get 16/5 V -/
example : Obeys src 3 1 (fun r => if r = 1 then 4 else if r = 2 then 10 else 0) (fun _ => -6) ∧
    Obeys (src ++ [.I "IX" 1 0 { dc := some 1 }]) 3 1 (fun r => if r = 1 then 7 / 2 else if r = 2 then 10 else 0) (fun _ => -(13 / 2)) ∧
    Obeys (src ++ [.R "RL" 1 0 2]) 3 1 (fun r => if r = 1 then 16 / 5 else if r = 2 then 10 else 0) (fun _ => -(34 / 5)) ∧
    inner (K := ℚ) 1 0 1 (fun r => if r = 1 then 4 else if r = 2 then 10 else 0) (fun r => if r = 1 then 7 / 2 else if r = 2 then 10 else 0) =
      1 / 2 := by
  refine ⟨?_, ?_, ?_, by norm_num [inner]⟩ <;>
  · refine ⟨rfl, fun r h0 hr => ?_, fun e he hv => ?_⟩
    · have : r = 1 ∨ r = 2 := by omega
      rcases this with rfl | rfl <;> decide +kernel
    · simp [src] at he
      rcases he with rfl | rfl | rfl | rfl | rfl <;> simp [Elem.vde] at hv
      decide +kernel

/-- a load with a node of its own -/
example : ∀ e ∈ ([.R "RA" 1 3 1, .R "RB" 3 0 1, .I "IB" 0 3 { dc := some 1 }] : List (Elem ℚ)), Hangs 1 0 3 4 e := by
  simp [Hangs, term]

end Verif.Thevenin
