import Verif.Proof.Mna
import Mathlib.Data.Rat.Defs
import Mathlib.Algebra.Field.Rat
import Mathlib.Tactic.NormNum
import Mathlib.Tactic.IntervalCases

/-!
Properties C06, C07, C11, C12: the assembled MNA system says what the circuit laws say.

Specification side (independent of the assembly): every element carries a current from
its first to its second terminal; Kirchhoff's current law at a node is the signed sum of
these currents; each voltage-defined element has a constitutive law.
-/

namespace Verif.Mna
open Verif.Circuit

variable {α : Type} [Field α]

/-! ### Specification -/

/-- Value of an independent source as seen by the static system: time-dependent
sources are added later (see C70). -/
def staticVal (s : Src α) : α := if s.timeDep then 0 else s.dc.getD 0

/-- Current from terminal 1 to terminal 2 of an element, given the unknowns `x`
(node voltages at `0..nv-1`, branch currents from `nv` on), the values of the
independent sources and, for a voltage-defined element, its branch number `k`. -/
def current (circ : List (Elem α)) (nv : Nat) (x : Vec α) (val : Src α → α) (k : Nat) :
    Elem α → α
  | .R _ n1 n2 r => (x n1 - x n2) / r
  | .C .. => 0
  | .K _ => 0
  | .NL .. => 0
  | .I _ _ _ s => val s
  | .G _ _ _ s1 s2 a => a * (x s1 - x s2)
  | .F _ _ _ src a => a * x (nv + branchOf circ src)
  | .V .. | .E .. | .H .. | .L .. => x (nv + k)

/-- Sum of the currents leaving node `r`, branch numbers starting from `k`. -/
def kcl (circ : List (Elem α)) (nv : Nat) (x : Vec α) (val : Src α → α) :
    List (Elem α) → Nat → Nat → α
  | [], _, _ => 0
  | e :: t, k, r =>
    inj (term e).1 (term e).2 (current circ nv x val k e) r +
      kcl circ nv x val t (k + if e.vde then 1 else 0) r

/-- Documented constitutive law of a voltage-defined element (zero when satisfied).
VSource/Inductor/EVSource/HVSource docstrings, circuit.py:804-842 and 844-878. -/
def law (circ : List (Elem α)) (nv : Nat) (x : Vec α) (val : Src α → α) : Elem α → α
  | .V _ n1 n2 s => x n1 - x n2 - val s
  | .L _ n1 n2 .. => x n1 - x n2
  | .E _ n1 n2 s1 s2 a => x n1 - x n2 - a * (x s1 - x s2)
  | .H _ n1 n2 src a => x n1 - x n2 - a * x (nv + branchOf circ src)
  | _ => 0

/-- The sense nodes of a voltage-controlled voltage source are distinct from each other
and from its output nodes, and there is no current-controlled voltage source. -/
def Plain : Elem α → Prop
  | .E _ a b c d _ => c ≠ d ∧ c ≠ a ∧ c ≠ b ∧ d ≠ a ∧ d ≠ b
  | .H .. => False
  | _ => True

/-! ### Auxiliary -/

theorem c1_high {nv : Nat} {e : Elem α} (x : Vec α) (he : NodesLt nv e) (r : Nat) (hr : nv ≤ r) :
    c1 x e r = 0 := by
  cases e <;> simp only [c1, inj, NodesLt] at he ⊢
  all_goals
    rw [if_neg (by omega), if_neg (by omega), sub_zero]

theorem c3_high {circ : List (Elem α)} {nv : Nat} {e : Elem α} (x : Vec α) (he : NodesLt nv e)
    (r : Nat) (hr : nv ≤ r) : c3 circ nv x e r = 0 := by
  cases e <;> simp only [c3, inj, NodesLt] at he ⊢
  all_goals
    rw [if_neg (by omega), if_neg (by omega), sub_zero]

theorem sum_zero_of {ι : Type} (l : List ι) (f : ι → α) (h : ∀ e ∈ l, f e = 0) :
    (l.map f).sum = 0 := by
  induction l with
  | nil => rfl
  | cons a t ih =>
    rw [List.map_cons, List.sum_cons, h a (List.mem_cons_self ..),
      ih (fun e he => h e (List.mem_cons_of_mem _ he)), zero_add]

theorem NodesLt.term_lt {nv : Nat} {e : Elem α} (he : NodesLt nv e) (hv : e.vde = true) :
    (term e).1 < nv ∧ (term e).2 < nv := by
  cases e <;> simp only [NodesLt, term, Elem.vde, Bool.false_eq_true] at he hv ⊢ <;> omega

theorem NodesLt.term_lt' {nv : Nat} {e : Elem α} (he : NodesLt nv e) (h0 : 0 < nv) :
    (term e).1 < nv ∧ (term e).2 < nv := by
  cases e <;> simp only [NodesLt, term] at he ⊢ <;> omega

theorem c2sum_branch {circ : List (Elem α)} {nv : Nat} (x : Vec α) {l : List (Elem α)} {z k : Nat}
    {e : Elem α} (hz : nv ≤ z) (he : ∀ e ∈ l, NodesLt nv e) (h : (vdes l)[k]? = some e) :
    c2sum circ nv x l z (z + k) = lawCoded circ nv x e := by
  have hrow : ∀ (l : List (Elem α)) (z r : Nat), (∀ e ∈ l, NodesLt nv e) → nv ≤ r → r < z →
      c2sum circ nv x l z r = 0 := by
    intro l
    induction l with
    | nil => intros; rfl
    | cons a t ih =>
      intro z r he hr hlt
      simp only [c2sum]
      rw [ih _ r (fun e' h' => he e' (List.mem_cons_of_mem _ h')) hr (by omega), add_zero]
      unfold c2
      by_cases hv : a.vde = true
      · have := (he a (List.mem_cons_self ..)).term_lt hv
        simp only [hv, if_true, inj]
        rw [if_neg (by omega), if_neg (by omega), if_neg (by omega)]; ring
      · simp [hv]
  induction l generalizing z k with
  | nil => simp [vdes_nil] at h
  | cons a t ih =>
    simp only [c2sum]
    have het : ∀ e ∈ t, NodesLt nv e := fun e' h' => he e' (List.mem_cons_of_mem _ h')
    rw [vdes_cons] at h
    by_cases hv : a.vde = true
    · simp only [hv, if_true] at h ⊢
      have ht := (he a (List.mem_cons_self ..)).term_lt hv
      cases k with
      | zero =>
        simp only [List.getElem?_cons_zero, Option.some.injEq] at h; subst h
        rw [hrow t (z + 1) (z + 0) het (by omega) (by omega)]
        simp only [c2, hv, if_true, inj]
        rw [if_neg (by omega), if_neg (by omega), if_pos (by omega)]; ring
      | succ k =>
        simp only [List.getElem?_cons_succ] at h
        have := ih (z := z + 1) (by omega) het h
        rw [show z + (k + 1) = z + 1 + k by omega, this]
        simp only [c2, hv, if_true, inj]
        rw [if_neg (by omega), if_neg (by omega), if_neg (by omega)]; ring
    · simp only [hv] at h ⊢
      have h' : (vdes t)[k]? = some e := by simpa using h
      have e0 : c2 circ nv x z a (z + k) = 0 := by simp [c2, hv]
      rw [e0, zero_add]
      simpa using ih (z := z) hz het h'

theorem kcl_split {circ : List (Elem α)} {nv : Nat} (x : Vec α) (l : List (Elem α)) (k r : Nat)
    (hr : r < nv) :
    (l.map (fun e => c1 x e r)).sum + c2sum circ nv x l (nv + k) r +
      (l.map (fun e => c3 circ nv x e r)).sum = kcl circ nv x staticVal l k r := by
  induction l generalizing k with
  | nil => simp [c2sum, kcl]
  | cons e t ih =>
    simp only [List.map_cons, List.sum_cons, c2sum, kcl]
    rw [← ih, Nat.add_assoc]
    have : c1 x e r + c2 circ nv x (nv + k) e r + c3 circ nv x e r =
        inj (term e).1 (term e).2 (current circ nv x staticVal k e) r := by
      have hne : ¬ r = nv + k := by omega
      cases e <;>
        simp only [c1, c2, c3, term, current, Elem.vde, hne, staticVal, if_true, if_false,
          Bool.false_eq_true, add_zero, zero_add] <;> simp [inj]
    rw [← this]; ring

/-! ### Properties -/

/-- C07 (partial: the circuit has no current-controlled voltage source and no
voltage-controlled voltage source whose sense nodes coincide with each other or with its
output nodes; voltage-defined elements are not shorted): every row of the assembled system
is the circuit law it stands for. What is missing: see the two refutations below. -/
theorem C07_equations_are_circuit_laws_partial {nv : Nat} {circ : List (Elem α)} {s : Sys α}
    (he : ∀ e ∈ circ, NodesLt nv e) (hp : ∀ e ∈ circ, Proper e) (hpl : ∀ e ∈ circ, Plain e)
    (h : generate circ nv = .ok s) (x : Vec α) :
    s.size = nv + (vdes circ).length ∧
    (∀ r, r < nv → mulVec s.size s.M x r + s.N r = kcl circ nv x staticVal circ 0 r) ∧
    (∀ k e, (vdes circ)[k]? = some e →
      mulVec s.size s.M x (nv + k) + s.N (nv + k) = law circ nv x staticVal e) := by
  obtain ⟨hz, hr⟩ := generate_row x he hp h
  refine ⟨hz, fun r hlt => ?_, fun k e hk => ?_⟩
  · rw [hr r, ← kcl_split x circ 0 r hlt, Nat.add_zero]
  · rw [hr (nv + k), sum_zero_of _ _ (fun e he' => c1_high x (he e he') _ (by omega)),
      sum_zero_of _ _ (fun e he' => c3_high x (he e he') _ (by omega)),
      c2sum_branch x (le_refl nv) he hk, zero_add, add_zero]
    have hm : e ∈ circ := (List.mem_filter.1 (List.mem_of_getElem? hk)).1
    have hpe := hpl e hm
    cases e with
    | E id a b c d v =>
      obtain ⟨p1, p2, p3, p4, p5⟩ := hpe
      simp only [lawCoded, law]
      have q1 : ¬ (a = c ∨ a = d) := by rintro (e | e) <;> simp_all
      have q2 : ¬ (b = c ∨ b = d) := by rintro (e | e) <;> simp_all
      rw [if_neg q1, if_neg q2, if_neg p1]; ring
    | H => exact hpe.elim
    | V | L => simp [lawCoded, law, staticVal]
    | R | C | K | I | G | F | NL => rfl

/-- C07: the node rows are right for every circuit, sense-node overlaps and
current-controlled voltage sources included. -/
theorem C07_node_rows {nv : Nat} {circ : List (Elem α)} {s : Sys α}
    (he : ∀ e ∈ circ, NodesLt nv e) (hp : ∀ e ∈ circ, Proper e)
    (h : generate circ nv = .ok s) (x : Vec α) (r : Nat) (hlt : r < nv) :
    mulVec s.size s.M x r + s.N r = kcl circ nv x staticVal circ 0 r := by
  obtain ⟨-, hr⟩ := generate_row x he hp h
  rw [hr r, ← kcl_split x circ 0 r hlt, Nat.add_zero]

/-- C07: the row of a current-controlled voltage source is `v1 - v2 + α·I`: the sign of
the controlled voltage is the opposite of the documented one, for every circuit. -/
theorem C07_ccvs_row {nv : Nat} {circ : List (Elem α)} {s : Sys α}
    (he : ∀ e ∈ circ, NodesLt nv e) (hp : ∀ e ∈ circ, Proper e)
    (h : generate circ nv = .ok s) (x : Vec α) (k : Nat) (id src : String) (n1 n2 : Nat) (a : α)
    (hk : (vdes circ)[k]? = some (.H id n1 n2 src a)) :
    mulVec s.size s.M x (nv + k) + s.N (nv + k) = x n1 - x n2 + a * x (nv + branchOf circ src) := by
  obtain ⟨-, hr⟩ := generate_row x he hp h
  rw [hr (nv + k), sum_zero_of _ _ (fun e he' => c1_high x (he e he') _ (by omega)),
      sum_zero_of _ _ (fun e he' => c3_high x (he e he') _ (by omega)),
      c2sum_branch x (le_refl nv) he hk, zero_add, add_zero]
  rfl

/-- A follower loop: current sensed in V1, transresistance 2. -/
def ccvsDemo : List (Elem ℚ) :=
  [.V "V1" 1 0 { dc := some 1 }, .R "R1" 1 0 1, .H "H1" 2 0 "V1" 2, .R "R2" 2 0 1]

def okOr {ε β : Type} (d : β) : Except ε β → β
  | .ok b => b
  | .error _ => d

/-- C07 refuted for the current-controlled voltage source: with I(V1) = -1 and
V(2) = +2 the branch equation is satisfied, although the documented
`V(2) = 2·I(V1)` would require V(2) = -2. -/
theorem C07_ccvs_sign_refuted :
    let s := okOr ⟨0, fun _ _ => 0, fun _ => 0⟩ (generate ccvsDemo 3)
    let x : Vec ℚ := fun i => if i = 1 then 1 else if i = 2 then 2 else if i = 3 then -1 else
      if i = 4 then -2 else 0
    (∀ r < 5, mulVec s.size s.M x r + s.N r = 0) ∧ law ccvsDemo 3 x staticVal (.H "H1" 2 0 "V1" 2) ≠ 0 := by
  decide +kernel

/-- An amplifier with its inverting input tied to its output: the E source overwrites the
coefficient of its own output node. -/
def vcvsDemo : List (Elem ℚ) :=
  [.V "V1" 1 0 { dc := some 1 }, .E "E1" 2 0 1 2 3, .R "R2" 2 0 1]

/-- C07 refuted for a voltage-controlled voltage source in feedback: the coded equation is
solved by V(2) = 1, but `V(2) = 3·(V(1)-V(2))` requires V(2) = 3/4. -/
theorem C07_vcvs_overlap_refuted :
    let s := okOr ⟨0, fun _ _ => 0, fun _ => 0⟩ (generate vcvsDemo 3)
    let x : Vec ℚ := fun i => if i = 1 then 1 else if i = 2 then 1 else if i = 4 then -1 else 0
    (∀ r < 5, mulVec s.size s.M x r + s.N r = 0) ∧
      law vcvsDemo 3 x staticVal (.E "E1" 2 0 1 2 3) ≠ 0 := by
  decide +kernel

/-- hypotheses of C07 are met by a circuit with every other kind of element -/
def mnaDemo : List (Elem ℚ) :=
  [.R "R1" 1 2 2, .V "V1" 1 0 { dc := some 3 }, .C "C1" 2 0 1 none, .L "L1" 2 3 1 none [],
   .E "E1" 4 0 1 2 5, .G "G1" 3 0 2 0 (1/2), .F "F1" 4 3 "l1" 2, .I "I1" 0 2 { dc := some 1 }]

example : (∀ e ∈ mnaDemo, NodesLt 5 e) ∧ (∀ e ∈ mnaDemo, Proper e) ∧ (∀ e ∈ mnaDemo, Plain e) := by
  simp [mnaDemo, NodesLt, Proper, Plain]

example : ((generate mnaDemo 5).toOption.map (·.size)) = some 8 := by decide +kernel

/-- C06: current conservation. For every circuit (no voltage-defined element shorted on
itself), the node equations of the unreduced system add up to zero for every vector of
unknowns. -/
theorem C06_current_conserved {nv : Nat} {circ : List (Elem α)} {s : Sys α}
    (he : ∀ e ∈ circ, NodesLt nv e) (hp : ∀ e ∈ circ, Proper e)
    (h : generate circ nv = .ok s) (hnv : 0 < nv) (x : Vec α) :
    ∑ r ∈ Finset.range nv, (mulVec s.size s.M x r + s.N r) = 0 := by
  have hinj : ∀ (a b : Nat) (i : α), a < nv → b < nv →
      ∑ r ∈ Finset.range nv, inj a b i r = 0 := by
    intro a b i ha hb
    simp only [inj, Finset.sum_sub_distrib]
    rw [Finset.sum_ite_eq' (Finset.range nv) a (fun _ => i),
      Finset.sum_ite_eq' (Finset.range nv) b (fun _ => i)]
    simp [ha, hb]
  have hk : ∀ (l : List (Elem α)) (k : Nat), (∀ e ∈ l, NodesLt nv e) →
      ∑ r ∈ Finset.range nv, kcl circ nv x staticVal l k r = 0 := by
    intro l
    induction l with
    | nil => intro k _; simp [kcl]
    | cons e t ih =>
      intro k hl
      simp only [kcl, Finset.sum_add_distrib]
      rw [ih _ (fun e' h' => hl e' (List.mem_cons_of_mem _ h')), add_zero]
      have hn := hl e (List.mem_cons_self ..)
      exact hinj _ _ _ (hn.term_lt' hnv).1 (hn.term_lt' hnv).2
  rw [← hk circ 0 he]
  apply Finset.sum_congr rfl
  intro r hr
  exact C07_node_rows he hp h x r (Finset.mem_range.1 hr)

/-- C06, in terms of the matrix itself: every column of the KCL part sums to zero, and so
does the KCL part of the constant vector. -/
theorem C06_columns_sum_zero {nv : Nat} {circ : List (Elem α)} {s : Sys α}
    (he : ∀ e ∈ circ, NodesLt nv e) (hp : ∀ e ∈ circ, Proper e)
    (h : generate circ nv = .ok s) (hnv : 0 < nv) :
    (∀ c < s.size, ∑ r ∈ Finset.range nv, s.M r c = 0) ∧ ∑ r ∈ Finset.range nv, s.N r = 0 := by
  have h0 := C06_current_conserved he hp h hnv (fun _ => 0)
  simp only [mulVec, mul_zero, Finset.sum_const_zero, zero_add] at h0
  refine ⟨fun c hc => ?_, h0⟩
  have h1 := C06_current_conserved he hp h hnv (fun j => if j = c then 1 else 0)
  rw [Finset.sum_add_distrib, h0, add_zero] at h1
  rw [← h1]
  apply Finset.sum_congr rfl
  intro r _
  simp [mulVec, hc]

/-- C06 refuted for a voltage source with both terminals on one node: current is created. -/
theorem C06_shorted_source_refuted :
    let s := okOr ⟨0, fun _ _ => 0, fun _ => 0⟩
      (generate ([.V "V1" 1 1 { dc := some 1 }, .R "R1" 1 0 1] : List (Elem ℚ)) 2)
    ∑ r ∈ Finset.range 2, s.M r 2 = -1 := by
  decide +kernel

/-- C11: dropping the reference row and column loses nothing. With the reference at 0 V the
reduced system (`remove_row_and_col`, `remove_row`, utilities.py:99-159) holds iff the
full one does. -/
theorem C11_reduced_iff_full {nv : Nat} {circ : List (Elem α)} {s : Sys α}
    (he : ∀ e ∈ circ, NodesLt nv e) (hp : ∀ e ∈ circ, Proper e)
    (h : generate circ nv = .ok s) (hnv : 0 < nv) (x : Vec α) (hx : x 0 = 0) :
    (∀ i, i < s.size - 1 →
      mulVec (s.size - 1) (fun a b => s.M (a + 1) (b + 1)) (fun j => x (j + 1)) i + s.N (i + 1) = 0) ↔
    (∀ r, r < s.size → mulVec s.size s.M x r + s.N r = 0) := by
  have hsz : nv ≤ s.size := by
    rw [(generate_row x he hp h).1]; omega
  have hrow : ∀ i, mulVec (s.size - 1) (fun a b => s.M (a + 1) (b + 1)) (fun j => x (j + 1)) i =
      mulVec s.size s.M x (i + 1) := by
    intro i
    unfold mulVec
    obtain ⟨m, hm⟩ : ∃ m, s.size = m + 1 := ⟨s.size - 1, by omega⟩
    rw [hm, Nat.add_sub_cancel, Finset.sum_range_succ']
    simp [hx]
  constructor
  · intro hi
    have hpos : ∀ r, 0 < r → r < s.size → mulVec s.size s.M x r + s.N r = 0 := by
      intro r h0 hr
      have := hi (r - 1) (by omega)
      rw [hrow, Nat.sub_add_cancel h0] at this
      exact this
    intro r hr
    rcases Nat.eq_zero_or_pos r with h0 | h0
    · subst h0
      have hc := C06_current_conserved he hp h hnv x
      obtain ⟨m, hm⟩ : ∃ m, nv = m + 1 := ⟨nv - 1, by omega⟩
      rw [hm, Finset.sum_range_succ'] at hc
      rw [Finset.sum_eq_zero (fun i hi => hpos (i + 1) (by omega)
        (by have := Finset.mem_range.1 hi; omega)), zero_add] at hc
      exact hc
    · exact hpos r h0 hr
  · intro hf i hi
    rw [hrow]
    exact hf (i + 1) (by omega)

/-- C12: the Gmin matrix is diagonal, `gmin` on every non-reference node (reduced rows
`0..nv-2`) and zero on every branch equation. -/
theorem C12_gmin_matrix (nv : Nat) (g : α) (i j : Nat) :
    gminMatrix nv g i j = if i = j ∧ i < nv - 1 then g else 0 := by
  unfold gminMatrix
  generalize nv - 1 = n
  induction n with
  | zero => simp
  | succ n ih =>
    rw [List.range_succ, List.foldl_append]
    simp only [List.foldl_cons, List.foldl_nil, Mat.put]
    rw [ih]
    by_cases h1 : i = n ∧ j = n
    · rw [if_pos h1, if_pos ⟨by omega, by omega⟩]
    · rw [if_neg h1]
      by_cases h2 : i = j ∧ i < n
      · rw [if_pos h2, if_pos ⟨h2.1, by omega⟩]
      · rw [if_neg h2, if_neg (by omega)]

/-- C12: adding Gmin is the same as a conductance from every non-reference node to ground:
the extra current leaving node `i+1` is `g·v`, branch equations are unaffected. -/
theorem C12_gmin_current (nv S : Nat) (g : α) (x : Vec α) (i : Nat) (hi : i < S) :
    mulVec S (gminMatrix nv g) x i = if i < nv - 1 then g * x i else 0 := by
  unfold mulVec
  simp only [C12_gmin_matrix]
  by_cases h : i < nv - 1
  · rw [if_pos h, Finset.sum_eq_single i]
    · simp [h]
    · intro b _ hb; rw [if_neg (by omega), zero_mul]
    · intro hn; exact absurd (Finset.mem_range.2 hi) hn
  · rw [if_neg h]
    apply Finset.sum_eq_zero
    intro b _
    rw [if_neg (by omega), zero_mul]

example : gminMatrix 3 (1/2 : ℚ) 1 1 = 1/2 ∧ gminMatrix 3 (1/2 : ℚ) 2 2 = 0 := by decide +kernel

end Verif.Mna
