import Verif.Props.Laws
import Verif.Props.AcEquiv

/-!
C223: Tellegen's theorem. The voltages of one circuit and the currents of another one with the same connections, each from any analysis,
have no power together. With both from one circuit: power is conserved.
-/

namespace Verif.Tellegen
open Verif.Circuit Verif.Mna Verif.Dyn Verif.Rlc Verif.Recip

section General
variable {K α β : Type} [Field K]

/-- voltages of the elements of `A` with currents of the elements of `A'` -/
def power (termA : α → Nat × Nat) (v : Nat → K) (c : β → K) (A : List α) (A' : List β) : K :=
  (List.zipWith (fun e e' => (v (termA e).1 - v (termA e).2) * c e') A A').sum

theorem power_eq (tA : α → Nat × Nat) (tB : β → Nat × Nat) (v : Nat → K) (c : β → K) {nv : Nat} :
    ∀ (A : List α) (A' : List β), A.map tA = A'.map tB → (∀ e ∈ A', (tB e).1 < nv ∧ (tB e).2 < nv) →
    power tA v c A A' = ∑ r ∈ Finset.range nv, v r * (A'.map fun e => inj (tB e).1 (tB e).2 (c e) r).sum
  | [], [], _, _ => by simp [power]
  | e :: A, e' :: A', h, hn => by
    simp only [List.map_cons, List.cons.injEq] at h
    have ih := power_eq tA tB v c A A' h.2 fun x hx => hn x (List.mem_cons_of_mem _ hx)
    have h1 := hn e' (List.mem_cons_self ..)
    have h2 := sum_inj v (tB e').1 (tB e').2 (c e') h1.1 h1.2
    unfold power at ih ⊢
    simp only [List.zipWith_cons_cons, List.sum_cons, List.map_cons, mul_add, Finset.sum_add_distrib, ih, h2, h.1]
end General

theorem terms_lt {K : Type} {nv : Nat} {A : List (Elem K)} (hnv : 0 < nv) (h : ∀ e ∈ A, NodesLt nv e) :
    ∀ e ∈ A, (term e).1 < nv ∧ (term e).2 < nv := by
  intro e he
  have := h e he
  cases e <;> simp only [NodesLt, term] at this ⊢ <;> omega

section Op
variable {K : Type} [Field K] [LinearOrder K] [IsStrictOrderedRing K] {A A' : List (Elem K)} {nv m m' : Nat} {s s' : Sys K}
  {gmin gmin' : K} {o : Op.OOpts K}

/-- C223: two circuits with the same connections (whatever their elements are): the voltages that `op_analysis` reports for the one,
times the currents of the other, add up to zero. -/
theorem C223_op (ho : Op.Plain o) (hstd : o.meth.std = true) (hA : Laws.Ready A nv m s gmin) (hB : Laws.Ready A' nv m' s' gmin')
    (ht : A.map term = A'.map term) :
    ∃ v i v' i', Laws.Reports o gmin A nv m s v i ∧ Laws.Reports o gmin' A' nv m' s' v' i' ∧
      power term v (Laws.cur 1 v' i') A A' = 0 ∧ power term v (Laws.cur 1 v i) A A = 0 := by
  obtain ⟨⟨v, i, r, ob⟩, -⟩ := Laws.C171_reports hA ho hstd
  obtain ⟨⟨v', i', r', ob'⟩, -⟩ := Laws.C171_reports hB ho hstd
  have main : ∀ (X : List (Elem K)) (u : Nat → K) (j : List Char → K), A.map term = X.map term → (∀ e ∈ X, NodesLt nv e) →
      Laws.Obeys X nv 1 u j → power term v (Laws.cur 1 u j) A X = 0 := by
    intro X u j hx hn h
    rw [power_eq term term v _ A X hx (terms_lt hA.pos hn)]
    refine Finset.sum_eq_zero fun r hr => ?_
    rcases Nat.eq_zero_or_pos r with rfl | h0
    · rw [ob.ground, zero_mul]
    · have := h.node r h0 (Finset.mem_range.1 hr)
      unfold Laws.leaving at this
      rw [this, mul_zero]
  exact ⟨v, i, v', i', r, r', main A' v' i' ht hB.nodes ob', main A v i rfl hA.nodes ob⟩
end Op

open AcLaws AcEquiv
open Complex (I)

variable {A A' : List (Elem ℝ)} {nv m m' : Nat} {s s' : Sys ℝ} {D D' : Mat ℝ} {ph ph' : String → Option ℂ} {gmin' cmin' : ℝ}
  {p : ℝ × (Fin m → ℂ)} {q : ℝ × (Fin m' → ℂ)}

theorem sum_conj (c : Elem ℝ → ℂ) (r : Nat) (l : List (Elem ℝ)) :
    (l.map fun e => inj (term e).1 (term e).2 ((starRingEnd ℂ) (c e)) r).sum =
      (starRingEnd ℂ) (l.map fun e => inj (term e).1 (term e).2 (c e) r).sum := by
  induction l with
  | nil => simp
  | cons e l ih =>
    have : inj (term e).1 (term e).2 ((starRingEnd ℂ) (c e)) r = (starRingEnd ℂ) (inj (term e).1 (term e).2 (c e) r) := by
      simp only [inj]
      split_ifs <;> simp
    simp only [List.map_cons, List.sum_cons, map_add, this, ih]

/-- C223: the same for AC analyses: voltages of the one (`p`, reported at whatever frequency, or by another analysis) times conjugate
currents of the other. (Circuits that meet the hypotheses are in the example of C221.) The small admittances that the analysis puts at the nodes (`options.gmin`, `options.cmin`) take their share. -/
theorem C223_ac (p : ℝ × (Fin m → ℂ)) (hB : Ready A' nv m' s' D' cmin')
    (hq : Reports A' nv m' s' D' ph' gmin' q) (ht : A.map term = A'.map term) :
    ∃ g : ℝ, (g = gmin' ∨ g = 0) ∧
      power term (Rlc.ext p.2) (fun e => (starRingEnd ℂ) (pcur ph' (I * (2 * Real.pi * q.1 : ℝ)) (Rlc.ext q.2)
        (pnamed A' nv (Rlc.ext q.2)) e)) A A' +
      ∑ r ∈ Finset.range nv, Rlc.ext p.2 r * (starRingEnd ℂ) ((g + I * (2 * Real.pi * q.1 : ℝ) * cmin') * Rlc.ext q.2 r) = 0 := by
  obtain ⟨o', t', a', b', n', x0', pts', ho', hr', hm'⟩ := hq
  obtain ⟨g', hg', k2, -⟩ := C174_results hB.pos hB.unique hB.nodes hB.proper hB.gen hB.size hB.dyn ph' gmin' ho' t' a' b' n' x0' hr' q hm'
  refine ⟨g', hg', ?_⟩
  rw [power_eq term term _ _ A A' ht (terms_lt hB.pos hB.nodes), ← Finset.sum_add_distrib]
  refine Finset.sum_eq_zero fun r hr => ?_
  rcases Nat.eq_zero_or_pos r with rfl | h0
  · simp [Rlc.ext]
  · have := k2.node r h0 (Finset.mem_range.1 hr)
    rw [sum_conj, ← mul_add, ← map_add, this, map_zero, mul_zero]

/-- C223: the complex powers of all elements of a circuit, sources included, add up to zero at every frequency (active and reactive
power), if `options.gmin` and `options.cmin` are zero. -/
theorem C223_balance (hA : Ready A nv m s D 0) (hp : Reports A nv m s D ph 0 p) :
    (A.map fun e => (Rlc.ext p.2 (term e).1 - Rlc.ext p.2 (term e).2) * (starRingEnd ℂ) (pcur ph (I * (2 * Real.pi * p.1 : ℝ))
      (Rlc.ext p.2) (pnamed A nv (Rlc.ext p.2)) e)).sum = 0 := by
  obtain ⟨g, hg, h⟩ := C223_ac p hA hp rfl
  have : g = 0 := by tauto
  subst this
  simpa [power, List.zipWith_self] using h

/-! ### Examples -/

open Verif.Bound

/-- two circuits with the same connections: a divider, and an inductor in its place with a controlled source -/
def ex1 : List (Elem ℚ) := [.V "V1" 1 0 { dc := some 6 }, .R "R1" 1 2 1, .R "R2" 2 0 2]
def ex2 : List (Elem ℚ) := [.I "I1" 1 0 { dc := some (-1) }, .R "R1" 1 2 5, .G "G1" 2 0 2 0 3]

example : Laws.Ready ex1 3 3 (sysOf ex1 3) (1 / 1000) ∧ Laws.Ready ex2 3 2 (sysOf ex2 3) (1 / 1000) ∧ ex1.map term = ex2.map term := by
  refine ⟨?_, ?_, rfl⟩
  · exact ⟨by decide, by unfold UniqueVde; decide +kernel, by simp [ex1, NodesLt], by simp [ex1, Proper], rfl, rfl,
      by simp only [Matrix.det_fin_three]; decide +kernel, by simp only [Matrix.det_fin_three]; decide +kernel⟩
  · exact ⟨by decide, by unfold UniqueVde; decide +kernel, by simp [ex2, NodesLt], by simp [ex2, Proper], rfl, rfl,
      by simp only [Matrix.det_fin_two]; decide +kernel, by simp only [Matrix.det_fin_two]; decide +kernel⟩

/-- 6 V, 2 V and 4 V across the elements of the first, −1 A, 1 A and 1 A through those of the second -/
example : Laws.Obeys ex1 3 1 (fun r => if r = 1 then 6 else if r = 2 then 4 else 0) (fun _ => -2) ∧
    Laws.Obeys ex2 3 1 (fun r => if r = 1 then 16 / 3 else if r = 2 then 1 / 3 else 0) (fun _ => 0) ∧
    power (K := ℚ) term (fun r => if r = 1 then 6 else if r = 2 then 4 else 0)
      (Laws.cur 1 (fun r => if r = 1 then 16 / 3 else if r = 2 then 1 / 3 else 0) (fun _ => 0)) ex1 ex2 = 0 := by
  refine ⟨⟨rfl, fun r h0 hr => ?_, fun e he hv => ?_⟩, ⟨rfl, fun r h0 hr => ?_, fun e he hv => ?_⟩, by decide +kernel⟩
  · have : r = 1 ∨ r = 2 := by omega
    rcases this with rfl | rfl <;> decide +kernel
  · simp [ex1] at he
    rcases he with rfl | rfl | rfl <;> simp [Elem.vde] at hv
    decide +kernel
  · have : r = 1 ∨ r = 2 := by omega
    rcases this with rfl | rfl <;> decide +kernel
  · simp [ex2] at he
    rcases he with rfl | rfl | rfl <;> simp [Elem.vde] at hv

end Verif.Tellegen
