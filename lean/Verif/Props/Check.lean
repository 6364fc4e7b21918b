import Verif.Model.Check
import Verif.Props.Mna
import Verif.Props.Small
import Mathlib.Logic.Relation
import Mathlib.Algebra.Order.Field.Basic
import Mathlib.Algebra.Order.BigOperators.Group.List
import Mathlib.Tactic.NormNum
import Mathlib.Tactic.LinearCombination
import Mathlib.Tactic.Linarith

/-!
C58: paths to ground. C59: sanity checks of circuits.
-/

namespace Verif.Check
open Verif.Circuit Verif.Mna

/-! ### C59 -/

/-- C59: the four documented conditions are what is checked, and nothing else.
Missing: paths to ground, which `check_circuit` does not look at (`C59_floating_refuted`). -/
theorem C59_accepts_iff_partial {α : Type} (nodes : Nodes.Circ) (circ : List (Elem α)) :
    checkCircuit nodes circ = .ok ↔
      2 ≤ nodes.dict.length / 2 ∧ (∃ v, nodes.dict.get (.int 0) = some v) ∧ 2 ≤ circ.length ∧
      ∀ i j (hi : i < circ.length) (hj : j < circ.length), i < j →
        (circ[i]).id ≠ (circ[j]).id := by
  have hd : hasDuplicateElem circ = false ↔ ∀ i j (hi : i < circ.length) (hj : j < circ.length),
      i < j → (circ[i]).id ≠ (circ[j]).id := by
    rw [← Bool.not_eq_true, Verif.Small.C82_duplicates]
    constructor
    · intro h i j hi hj hij he
      exact h ⟨i, j, hi, hj, hij, he⟩
    · rintro h ⟨i, j, hi, hj, hij, he⟩
      exact h i j hi hj hij he
  have hh : nodes.dict.has (.int 0) = true ↔ ∃ v, nodes.dict.get (.int 0) = some v := by
    unfold Nodes.Dict.has
    rw [Option.isSome_iff_exists]
  unfold checkCircuit
  constructor
  · intro h
    split at h
    · cases h
    · rename_i h1
      split at h
      · cases h
      · rename_i h2
        split at h
        · cases h
        · rename_i h3
          split at h
          · cases h
          · rename_i h4
            exact ⟨by omega, hh.1 (by simpa using h2), by omega, hd.1 (by simpa using h4)⟩
  · rintro ⟨h1, h2, h3, h4⟩
    rw [if_neg (by omega), if_neg (by simp [hh.2 h2]), if_neg (by omega),
      if_neg (by simp [hd.2 h4])]

/-- The first failed condition in the documented order is the one reported. -/
theorem C59_reason {α : Type} (nodes : Nodes.Circ) (circ : List (Elem α)) :
    (checkCircuit nodes circ = .fewNodes ↔ nodes.dict.length / 2 < 2) ∧
    (checkCircuit nodes circ = .noRef →
      2 ≤ nodes.dict.length / 2 ∧ nodes.dict.get (.int 0) = none) ∧
    (checkCircuit nodes circ = .fewElems → circ.length < 2) ∧
    (checkCircuit nodes circ = .duplicate →
      ∃ i j, ∃ hi : i < circ.length, ∃ hj : j < circ.length, i < j ∧
        (circ[i]).id = (circ[j]).id) := by
  unfold checkCircuit
  refine ⟨⟨fun h => ?_, fun h => by rw [if_pos h]⟩, fun h => ?_, fun h => ?_, fun h => ?_⟩
  · by_contra hc
    rw [if_neg hc] at h
    split at h
    · cases h
    · split at h
      · cases h
      · split at h <;> cases h
  · split at h
    · cases h
    · rename_i h1
      split at h
      · rename_i h2
        exact ⟨by omega, by simpa [Nodes.Dict.has] using h2⟩
      · split at h
        · cases h
        · split at h <;> cases h
  · split at h
    · cases h
    · split at h
      · cases h
      · split at h
        · assumption
        · split at h <;> cases h
  · split at h
    · cases h
    · split at h
      · cases h
      · split at h
        · cases h
        · split at h
          · rename_i h4
            exact (Verif.Small.C82_duplicates circ).1 h4
          · cases h

/-! ### Statement vocabulary of C58 -/

variable {α : Type} [Field α] [LinearOrder α] [IsStrictOrderedRing α]

/-- The element connects the two nodes for direct current: resistors, voltage-defined elements
and the output ports of non-linear elements. -/
def Connects (e : Elem α) (a b : Nat) : Prop :=
  match e with
  | .R _ n1 n2 _ | .L _ n1 n2 .. | .V _ n1 n2 _ | .H _ n1 n2 .. | .E _ n1 n2 .. =>
    (a = n1 ∧ b = n2) ∨ (a = n2 ∧ b = n1)
  | .NL _ _ _ _ _ oports => (a, b) ∈ oports ∨ (b, a) ∈ oports
  | _ => False

/-- Two different nodes are connected for direct current by one element. -/
def Adj (circ : List (Elem α)) (a b : Nat) : Prop := a ≠ b ∧ ∃ e ∈ circ, Connects e a b

/-- There is a DC path from `n` to ground. -/
def Grounded (circ : List (Elem α)) (n : Nat) : Prop := Relation.ReflTransGen (Adj circ) n 0

/-- Resistances are positive, a voltage-controlled current source does not sense its own output
nodes, and there are no current-controlled current sources. -/
def Benign : Elem α → Prop
  | .R _ _ _ r => 0 < r
  | .G _ a b c d _ => a ≠ c ∧ a ≠ d ∧ b ≠ c ∧ b ≠ d
  | .F .. => False
  | _ => True

/-! ### Entries of the matrix -/

/-- A unit vector. -/
def unit (j : Nat) : Vec α := fun i => if i = j then 1 else 0

omit [LinearOrder α] [IsStrictOrderedRing α] in
theorem mulVec_unit {S : Nat} (M : Mat α) (r j : Nat) (hj : j < S) :
    mulVec S M (unit j) r = M r j := by
  unfold mulVec unit
  simp [hj]

omit [LinearOrder α] [IsStrictOrderedRing α] in
theorem mulVec_zero {S : Nat} (M : Mat α) (r : Nat) : mulVec S M (fun _ => 0) r = 0 := by
  unfold mulVec
  simp

/-- The contribution of the voltage-defined element of column `j`. -/
def colTerm (l : List (Elem α)) (k r : Nat) : α :=
  match (vdes l)[k]? with
  | some e => inj (term e).1 (term e).2 1 r
  | none => 0

omit [LinearOrder α] [IsStrictOrderedRing α] in
theorem c2sum_unit (circ : List (Elem α)) (nv : Nat) (l : List (Elem α)) : ∀ (z r j : Nat),
    r < nv → nv ≤ z → c2sum circ nv (unit j) l z r = if z ≤ j then colTerm l (j - z) r else 0 := by
  induction l with
  | nil => intro z r j hr hz; simp [c2sum, colTerm, vdes_nil]
  | cons e t ih =>
    intro z r j hr hz
    rw [c2sum, ih _ _ _ hr (by split <;> omega)]
    by_cases hv : e.vde = true
    · have hrz : r ≠ z := by omega
      simp only [c2, hv, if_true, hrz, if_false, add_zero, unit]
      by_cases hzj : z ≤ j
      · rw [if_pos hzj]
        by_cases he : z = j
        · subst he
          rw [if_pos rfl, if_neg (by omega), add_zero]
          simp [colTerm, vdes_cons, hv]
        · rw [if_neg he, if_pos (by omega)]
          have : j - z = (j - (z + 1)) + 1 := by omega
          rw [this]
          simp [colTerm, vdes_cons, hv, inj]
      · rw [if_neg hzj, if_neg (by omega), if_neg (by omega)]
        simp [inj]
    · have hv' : e.vde = false := by simpa using hv
      simp only [c2, hv', Bool.false_eq_true, if_false, zero_add, add_zero]
      split
      · simp [colTerm, vdes_cons, hv']
      · rfl

omit [LinearOrder α] [IsStrictOrderedRing α] in
theorem c2sum_zero (circ : List (Elem α)) (nv : Nat) (l : List (Elem α)) : ∀ (z r : Nat),
    r < nv → nv ≤ z → c2sum circ nv (fun _ => 0) l z r = 0 := by
  induction l with
  | nil => intro z r hr hz; rfl
  | cons e t ih =>
    intro z r hr hz
    rw [c2sum, ih _ _ hr (by split <;> omega)]
    have hrz : r ≠ z := by omega
    by_cases hv : e.vde = true <;> simp [c2, hv, hrz, inj]

/-- What a resistor adds to the diagonal entry of node `n`. -/
def diagTerm (n : Nat) : Elem α → α
  | .R _ a b r => if a ≠ b ∧ (a = n ∨ b = n) then 1 / r else 0
  | _ => 0

omit [LinearOrder α] [IsStrictOrderedRing α] in
theorem c1_zero (e : Elem α) (r : Nat) : c1 (fun _ => 0) e r =
    match e with
    | .I _ n1 n2 src => inj n1 n2 (if src.timeDep then 0 else src.dc.getD 0) r
    | _ => 0 := by
  cases e <;> simp [c1, inj]

theorem c1_unit (e : Elem α) (hb : Benign e) (n : Nat) :
    c1 (unit n) e n = c1 (fun _ => 0) e n + diagTerm n e := by
  cases e with
  | R id a b r =>
    simp only [c1, inj, unit, diagTerm, sub_self, zero_div, ite_self, zero_add]
    by_cases ha : a = n
    · by_cases hb' : b = n
      · subst ha; subst hb'; simp
      · have h1 : ¬ n = b := fun h => hb' h.symm
        have h2 : ¬ a = b := fun h => hb' (h ▸ ha)
        simp [ha, hb', h1]
    · have h1 : ¬ n = a := fun h => ha h.symm
      by_cases hb' : b = n
      · have h2 : ¬ a = n := ha
        simp [ha, hb', h1]
        ring
      · have h3 : ¬ n = b := fun h => hb' h.symm
        simp [ha, hb', h1, h3]
  | G id a b c d g =>
    obtain ⟨h1, h2, h3, h4⟩ := hb
    simp only [c1, inj, unit, diagTerm, sub_self, mul_zero, ite_self, add_zero]
    by_cases ha : n = a
    · have hc : ¬ c = n := fun h => h1 (by omega)
      have hd : ¬ d = n := fun h => h2 (by omega)
      simp [hc, hd]
    · by_cases hb' : n = b
      · have hc : ¬ c = n := fun h => h3 (by omega)
        have hd : ¬ d = n := fun h => h4 (by omega)
        simp [hc, hd]
      · simp [ha, hb']
  | _ => simp [c1, diagTerm]

theorem c1_unit_col (nv : Nat) (e : Elem α) (he : NodesLt nv e) (r j : Nat) (hj : nv ≤ j) :
    c1 (unit j) e r = c1 (fun _ => 0) e r := by
  cases e with
  | R id a b x =>
    obtain ⟨h1, h2⟩ := he
    have ha : ¬ a = j := by omega
    have hb : ¬ b = j := by omega
    simp [c1, unit, ha, hb]
  | G id a b c d x =>
    obtain ⟨h1, h2, h3, h4⟩ := he
    have ha : ¬ c = j := by omega
    have hb : ¬ d = j := by omega
    simp [c1, unit, ha, hb]
  | _ => simp [c1]

theorem c3_benign (circ : List (Elem α)) (nv : Nat) (x : Vec α) (e : Elem α) (hb : Benign e)
    (r : Nat) : c3 circ nv x e r = 0 := by
  cases e <;> first | rfl | exact hb.elim

theorem sum_map_add' {ι : Type} (l : List ι) (f g h : ι → α) (hh : ∀ e ∈ l, f e = g e + h e) :
    (l.map f).sum = (l.map g).sum + (l.map h).sum := by
  induction l with
  | nil => simp
  | cons a t ih =>
    simp only [List.map_cons, List.sum_cons]
    rw [hh a (by simp), ih (fun e he => hh e (List.mem_cons_of_mem _ he))]
    ring

/-- The entries that `check_ground_paths` looks at. -/
theorem entries {nv : Nat} {circ : List (Elem α)} {s : Mna.Sys α}
    (he : ∀ e ∈ circ, NodesLt nv e) (hp : ∀ e ∈ circ, Proper e) (hb : ∀ e ∈ circ, Benign e)
    (h : generate circ nv = .ok s) (n : Nat) (hn : n < nv) :
    s.size = nv + (vdes circ).length ∧ s.M n n = (circ.map (diagTerm n)).sum ∧
      ∀ k, k < (vdes circ).length → s.M n (nv + k) = colTerm circ k n := by
  have h0 := generate_row (fun _ => 0) he hp h
  have hz := h0.2 n
  have c3z : ∀ x : Vec α, (circ.map (fun e => c3 circ nv x e n)).sum = 0 := fun x =>
    sum_zero_of circ _ (fun e hm => c3_benign circ nv x e (hb e hm) n)
  rw [mulVec_zero, c2sum_zero circ nv circ nv n hn (le_refl _), c3z] at hz
  refine ⟨h0.1, ?_, fun k hk => ?_⟩
  · have h1 := (generate_row (unit n) he hp h).2 n
    rw [mulVec_unit _ _ _ (by rw [h0.1]; omega), c2sum_unit circ nv circ nv n n hn (le_refl _),
      if_neg (by omega), c3z,
      sum_map_add' circ _ _ _ (fun e hm => c1_unit e (hb e hm) n)] at h1
    linear_combination h1 - hz
  · have h1 := (generate_row (unit (nv + k)) he hp h).2 n
    have hc : (circ.map (fun e => c1 (unit (nv + k)) e n)).sum =
        (circ.map (fun e => c1 (fun _ => 0) e n)).sum := by
      congr 1
      exact List.map_congr_left (fun e hm => c1_unit_col nv e (he e hm) n (nv + k) (by omega))
    rw [mulVec_unit _ _ _ (by rw [h0.1]; omega), c2sum_unit circ nv circ nv n _ hn (le_refl _),
      if_pos (by omega), c3z, hc] at h1
    rw [show nv + k - nv = k from by omega] at h1
    linear_combination h1 - hz

theorem sum_pos_iff {ι : Type} (l : List ι) (f : ι → α) (hf : ∀ e ∈ l, 0 ≤ f e) :
    (l.map f).sum = 0 ↔ ∀ e ∈ l, f e = 0 := by
  constructor
  · induction l with
    | nil => simp
    | cons a t ih =>
      intro h
      have hs : 0 ≤ (t.map f).sum := List.sum_nonneg (by
        intro x hx
        obtain ⟨e, he, rfl⟩ := List.mem_map.1 hx
        exact hf e (List.mem_cons_of_mem _ he))
      have ha := hf a (by simp)
      simp only [List.map_cons, List.sum_cons] at h
      have h1 : f a = 0 := by linarith
      have h2 : (t.map f).sum = 0 := by linarith
      intro e he
      rcases List.mem_cons.1 he with rfl | he
      · exact h1
      · exact ih (fun e he => hf e (List.mem_cons_of_mem _ he)) h2 e he
  · intro h
    exact sum_zero_of l f h

/-- A node is warned about exactly if no conducting element ends there. -/
theorem suspicious_iff {nv : Nat} {circ : List (Elem α)} {s : Mna.Sys α}
    (he : ∀ e ∈ circ, NodesLt nv e) (hp : ∀ e ∈ circ, Proper e) (hb : ∀ e ∈ circ, Benign e)
    (h : generate circ nv = .ok s) (n : Nat) (hn : n < nv) :
    suspicious s.M s.size nv 0 n = true ↔
      ∀ e ∈ circ, e.nonlinear = false → ∀ m, n ≠ m → ¬ Connects e n m := by
  obtain ⟨hsz, hd, hcol⟩ := entries he hp hb h n hn
  have hnn : ∀ e ∈ circ, 0 ≤ diagTerm n e := by
    intro e hm
    have := hb e hm
    cases e with
    | R id a b r =>
      simp only [diagTerm]
      split
      · exact le_of_lt (one_div_pos.2 this)
      · exact le_refl _
    | _ => exact le_refl _
  simp only [suspicious, Nat.sub_zero, Bool.and_eq_true, decide_eq_true_eq, List.all_eq_true,
    List.mem_range, hsz, Nat.add_sub_cancel_left, hd]
  rw [sum_pos_iff circ _ hnn]
  have hinj : ∀ (e : Elem α), e.vde = true → Proper e →
      (inj (term e).1 (term e).2 (1 : α) n = 0 ↔ (term e).1 ≠ n ∧ (term e).2 ≠ n) := by
    intro e hv hpr
    have hne : (term e).1 ≠ (term e).2 := by
      cases e <;> simp [Elem.vde] at hv <;> simpa [Proper, term] using hpr
    unfold inj
    by_cases h1 : n = (term e).1
    · have h2 : ¬ n = (term e).2 := fun h => hne (by rw [← h1, h])
      rw [if_pos h1, if_neg h2]
      simp [h1]
    · by_cases h2 : n = (term e).2
      · rw [if_neg h1, if_pos h2]
        simp [h2]
      · rw [if_neg h1, if_neg h2]
        simp only [sub_self, true_iff]
        exact ⟨fun h => h1 h.symm, fun h => h2 h.symm⟩
  constructor
  · rintro ⟨h1, h2⟩ e hm hnl m hne hc
    have hvd : e.vde = true → (term e).1 ≠ n ∧ (term e).2 ≠ n := by
      intro hv
      have hmv : e ∈ vdes circ := List.mem_filter.2 ⟨hm, hv⟩
      obtain ⟨k, hk, hke⟩ := List.getElem_of_mem hmv
      have := h2 k hk
      rw [hcol k hk] at this
      simp only [colTerm, List.getElem?_eq_getElem hk, hke] at this
      exact (hinj e hv (hp e hm)).1 this
    cases e with
    | R id a b r =>
      have h3 := h1 _ hm
      have hr : 0 < r := hb _ hm
      simp only [diagTerm] at h3
      rw [if_pos] at h3
      · exact absurd h3 (ne_of_gt (one_div_pos.2 hr))
      · rcases hc with ⟨rfl, rfl⟩ | ⟨rfl, rfl⟩
        · exact ⟨hne, Or.inl rfl⟩
        · exact ⟨fun h => hne h.symm, Or.inr rfl⟩
    | L id a b v ic cp =>
      have := hvd rfl
      rcases hc with ⟨rfl, rfl⟩ | ⟨rfl, rfl⟩ <;> simp [term] at this
    | V id a b v =>
      have := hvd rfl
      rcases hc with ⟨rfl, rfl⟩ | ⟨rfl, rfl⟩ <;> simp [term] at this
    | H id a b src v =>
      have := hvd rfl
      rcases hc with ⟨rfl, rfl⟩ | ⟨rfl, rfl⟩ <;> simp [term] at this
    | E id a b c d v =>
      have := hvd rfl
      rcases hc with ⟨rfl, rfl⟩ | ⟨rfl, rfl⟩ <;> simp [term] at this
    | NL id a b sense ports oports => simp [Elem.nonlinear] at hnl
    | C id a b v ic => exact hc
    | K c => exact hc
    | I id a b v => exact hc
    | G id a b c d v => exact hc
    | F id a b src v => exact hc
  · intro hall
    refine ⟨fun e hm => ?_, fun k hk => ?_⟩
    · cases e with
      | R id a b r =>
        simp only [diagTerm]
        rw [if_neg]
        rintro ⟨hne, hab⟩
        rcases hab with rfl | rfl
        · exact hall _ hm rfl b hne (Or.inl ⟨rfl, rfl⟩)
        · exact hall _ hm rfl a (fun h => hne h.symm) (Or.inr ⟨rfl, rfl⟩)
      | _ => rfl
    · rw [hcol k hk]
      have hm : (vdes circ)[k] ∈ vdes circ := List.getElem_mem hk
      obtain ⟨hm1, hv⟩ := List.mem_filter.1 hm
      simp only [colTerm, List.getElem?_eq_getElem hk]
      refine (hinj _ hv (hp _ hm1)).2 ?_
      have hpr := hp _ hm1
      have ha := hall _ hm1
      generalize (vdes circ)[k] = e at hv hpr ha
      cases e with
      | L id a b v ic cp =>
        refine ⟨fun h => ?_, fun h => ?_⟩ <;> simp only [term] at h <;> subst h
        · exact ha rfl b hpr (Or.inl ⟨rfl, rfl⟩)
        · exact ha rfl a (fun h => hpr h.symm) (Or.inr ⟨rfl, rfl⟩)
      | V id a b v =>
        refine ⟨fun h => ?_, fun h => ?_⟩ <;> simp only [term] at h <;> subst h
        · exact ha rfl b hpr (Or.inl ⟨rfl, rfl⟩)
        · exact ha rfl a (fun h => hpr h.symm) (Or.inr ⟨rfl, rfl⟩)
      | H id a b src v =>
        refine ⟨fun h => ?_, fun h => ?_⟩ <;> simp only [term] at h <;> subst h
        · exact ha rfl b hpr (Or.inl ⟨rfl, rfl⟩)
        · exact ha rfl a (fun h => hpr h.symm) (Or.inr ⟨rfl, rfl⟩)
      | E id a b c d v =>
        refine ⟨fun h => ?_, fun h => ?_⟩ <;> simp only [term] at h <;> subst h
        · exact ha rfl b hpr (Or.inl ⟨rfl, rfl⟩)
        · exact ha rfl a (fun h => hpr h.symm) (Or.inr ⟨rfl, rfl⟩)
      | _ => simp [Elem.vde] at hv

omit [LinearOrder α] [IsStrictOrderedRing α] in
theorem atOutput_iff (e : Elem α) (n : Nat) : atOutput n e = true ↔
    e.nonlinear = true ∧ ∃ m, Connects e n m := by
  cases e with
  | NL id a b sense ports oports =>
    simp only [atOutput, List.any_eq_true, Bool.or_eq_true, beq_iff_eq, Elem.nonlinear, true_and,
      Connects]
    constructor
    · rintro ⟨p, hp, h | h⟩
      · exact ⟨p.2, Or.inl (by rw [← h]; exact hp)⟩
      · exact ⟨p.1, Or.inr (by rw [← h]; exact hp)⟩
    · rintro ⟨m, h | h⟩
      · exact ⟨_, h, Or.inl rfl⟩
      · exact ⟨_, h, Or.inr rfl⟩
  | _ => simp [atOutput, Elem.nonlinear]

/-! ### Theorems -/

/-- C58: the check accepts a circuit exactly if every node but ground is touched by an element
that conducts DC (to another node, for linear elements). Missing: this is not the same as a path
to ground (`C58_floating_refuted`); negative resistances and self-controlled sources
(`C58_cancel_refuted`). -/
theorem C58_touched_partial {nv : Nat} {circ : List (Elem α)} {s : Mna.Sys α}
    (he : ∀ e ∈ circ, NodesLt nv e) (hp : ∀ e ∈ circ, Proper e) (hb : ∀ e ∈ circ, Benign e)
    (h : generate circ nv = .ok s) (nodes : List Nat) (hn : ∀ n ∈ nodes, n < nv) :
    checkGroundPaths s.M s.size nv 0 circ nodes = true ↔
      ∀ n ∈ nodes, n ≠ 0 → ∃ e ∈ circ, ∃ m, (e.nonlinear = true ∨ n ≠ m) ∧ Connects e n m := by
  simp only [checkGroundPaths, warned, List.isEmpty_iff, List.filter_eq_nil_iff, List.mem_filter]
  constructor
  · intro hall n hm hn0
    by_contra hc
    push_neg at hc
    refine hall n ⟨hm, ?_⟩ ?_
    · simp only [Bool.and_eq_true, bne_iff_ne, ne_eq, hn0, not_false_eq_true, true_and]
      rw [suspicious_iff he hp hb h n (hn n hm)]
      intro e hme hnl m hne hcon
      exact hc e hme m (Or.inr hne) hcon
    · simp only [Bool.not_eq_true', nlOutput, List.any_eq_false]
      intro e hme hat
      obtain ⟨hnl, m, hcon⟩ := (atOutput_iff e n).1 hat
      exact hc e hme m (Or.inl hnl) hcon
  · rintro hall n ⟨hm, hs⟩
    simp only [Bool.and_eq_true, bne_iff_ne] at hs
    obtain ⟨e, hme, m, hor, hcon⟩ := hall n hm hs.1
    have hsus := (suspicious_iff he hp hb h n (hn n hm)).1 hs.2
    by_cases hnl : e.nonlinear = true
    · have : nlOutput circ n = true :=
        List.any_eq_true.2 ⟨e, hme, (atOutput_iff e n).2 ⟨hnl, m, hcon⟩⟩
      simp [this]
    · have hne : n ≠ m := hor.resolve_left hnl
      exact absurd hcon (hsus e hme (by simpa using hnl) m hne)

/-- C58: a circuit in which every node has a DC path to ground is accepted. Missing: the converse
(`C58_floating_refuted`). -/
theorem C58_path_accepted_partial {nv : Nat} {circ : List (Elem α)} {s : Mna.Sys α}
    (he : ∀ e ∈ circ, NodesLt nv e) (hp : ∀ e ∈ circ, Proper e) (hb : ∀ e ∈ circ, Benign e)
    (h : generate circ nv = .ok s) (nodes : List Nat) (hn : ∀ n ∈ nodes, n < nv)
    (hg : ∀ n ∈ nodes, Grounded circ n) :
    checkGroundPaths s.M s.size nv 0 circ nodes = true := by
  rw [C58_touched_partial he hp hb h nodes hn]
  intro n hm hn0
  rcases Relation.ReflTransGen.cases_head (hg n hm) with h0 | ⟨m, ⟨hne, e, hme, hcon⟩, _⟩
  · exact absurd h0 hn0
  · exact ⟨e, hme, m, Or.inr hne, hcon⟩

/-- The nodes warned about are real ones: none of them has a path to ground. -/
theorem C58_warned_partial {nv : Nat} {circ : List (Elem α)} {s : Mna.Sys α}
    (he : ∀ e ∈ circ, NodesLt nv e) (hp : ∀ e ∈ circ, Proper e) (hb : ∀ e ∈ circ, Benign e)
    (h : generate circ nv = .ok s) (nodes : List Nat) (hn : ∀ n ∈ nodes, n < nv) (n : Nat)
    (hw : n ∈ warned s.M s.size nv 0 circ nodes) : ¬ Grounded circ n := by
  intro hg
  have hmem : n ∈ nodes := (List.mem_filter.1 (List.mem_filter.1 hw).1).1
  have hacc := C58_path_accepted_partial he hp hb h [n] (by simpa using hn n hmem) (by simpa using hg)
  have : n ∈ warned s.M s.size nv 0 circ [n] := by
    simp only [warned, List.mem_filter] at hw ⊢
    simp [hw.1.2, hw.2]
  simp only [checkGroundPaths, List.isEmpty_iff] at hacc
  simp [hacc] at this

omit [LinearOrder α] [IsStrictOrderedRing α] in
/-- The check gives the same answer for the reduced matrix, with the corresponding flag. -/
theorem C58_reduced [DecidableEq α] (M : Mat α) (size nv : Nat) (circ : List (Elem α)) (nodes : List Nat)
    (h1 : 1 ≤ nv) :
    warned (fun i j => M (i + 1) (j + 1)) (size - 1) nv 1 circ nodes =
      warned M size nv 0 circ nodes := by
  unfold warned
  congr 1
  apply List.filter_congr
  intro n _
  by_cases hn : n = 0
  · simp [hn]
  · have e1 : n - 1 + 1 = n := by omega
    have e2 : size - 1 - (nv - 1) = size - nv := by omega
    have e3 : ∀ k, nv - 1 + k + 1 = nv + k := by omega
    simp only [suspicious, e1, e2, e3, Nat.sub_zero]

/-! ### Witnesses -/

/-- Two nodes connected to each other only, beside a grounded one. -/
def floating : List (Elem ℚ) :=
  [.R "R1" 1 0 1, .R "R2" 2 3 1]

theorem floating_not_grounded : ¬ Grounded floating 2 := by
  intro h
  have key : ∀ a b, Relation.ReflTransGen (Adj floating) a b → a = 2 ∨ a = 3 → b = 2 ∨ b = 3 := by
    intro a b hab
    induction hab with
    | refl => exact id
    | tail _ hs ih =>
      intro ha
      obtain ⟨_, e, hme, hc⟩ := hs
      simp only [floating, List.mem_cons, List.not_mem_nil, or_false] at hme
      rcases hme with rfl | rfl
      · simp only [Connects] at hc
        rcases ih ha with rfl | rfl <;> omega
      · simp only [Connects] at hc
        omega
  have := key 2 0 h (Or.inl rfl)
  omega

/-- C58 is false: the check only looks at the elements at each node, so nodes connected to each
other but not to ground are accepted. -/
theorem C58_floating_refuted :
    ¬ ∀ (circ : List (Elem ℚ)) (nv : Nat) (s : Mna.Sys ℚ) (nodes : List Nat),
      (∀ e ∈ circ, NodesLt nv e) → (∀ e ∈ circ, Proper e) → (∀ e ∈ circ, Benign e) →
      generate circ nv = .ok s → checkGroundPaths s.M s.size nv 0 circ nodes = true →
      ∀ n ∈ nodes, Grounded circ n := by
  intro h
  refine floating_not_grounded (h floating 4 _ [1, 2, 3] ?_ ?_ ?_ rfl (by decide +kernel) 2
    (by simp)) <;>
    intro e hm <;> simp only [floating, List.mem_cons, List.not_mem_nil, or_false] at hm <;>
    rcases hm with rfl | rfl <;> simp [NodesLt, Proper, Benign]

/-- Two resistances that cancel. -/
def cancelling : List (Elem ℚ) := [.R "R1" 1 0 1, .R "R2" 1 0 (-1)]

/-- With a negative resistance, a node with a path to ground may be warned about. -/
theorem C58_cancel_refuted :
    ¬ ∀ (circ : List (Elem ℚ)) (nv : Nat) (s : Mna.Sys ℚ) (nodes : List Nat),
      (∀ e ∈ circ, NodesLt nv e) → (∀ e ∈ circ, Proper e) →
      generate circ nv = .ok s → (∀ n ∈ nodes, Grounded circ n) →
      checkGroundPaths s.M s.size nv 0 circ nodes = true := by
  intro h
  have := h cancelling 2 _ [1] ?_ ?_ rfl ?_
  · exact absurd this (by decide +kernel)
  · intro e hm
    simp only [cancelling, List.mem_cons, List.not_mem_nil, or_false] at hm
    rcases hm with rfl | rfl <;> simp [NodesLt]
  · intro e hm
    simp only [cancelling, List.mem_cons, List.not_mem_nil, or_false] at hm
    rcases hm with rfl | rfl <;> simp [Proper]
  · intro n hn
    have : n = 1 := by simpa using hn
    subst this
    refine Relation.ReflTransGen.single ⟨by decide, .R "R1" 1 0 1, by simp [cancelling], ?_⟩
    exact Or.inl ⟨rfl, rfl⟩

/-- A node table with ground and three nodes. -/
def nodes3 : Nodes.Circ :=
  (Nodes.addNode (Nodes.addNode (Nodes.addNode (Nodes.addNode {} "0").1 "a").1 "b").1 "c").1

/-- C59: a circuit with nodes that are not connected to ground passes `check_circuit`. -/
theorem C59_floating_refuted :
    checkCircuit nodes3 floating = .ok ∧ Nodes.extToInt nodes3 "b" = some 2 ∧
      ¬ Grounded floating 2 :=
  ⟨by decide +kernel, by decide +kernel, floating_not_grounded⟩

example : checkCircuit {} ([] : List (Elem ℚ)) = .fewNodes := by decide +kernel
example : checkCircuit nodes3 ([.R "R1" 1 0 1, .R "R1" 2 3 1] : List (Elem ℚ)) = .duplicate := by
  decide +kernel

/-- A resistor, a capacitor to a node with nothing else, and a diode: node 2 is warned about. -/
def capDemo : List (Elem ℚ) :=
  [.R "R1" 1 0 1, .C "C1" 1 2 1 none, .NL "D1" 3 0 none [(3, 0)] [(3, 0)]]

example : warned (okOr ⟨0, fun _ _ => 0, fun _ => 0⟩ (generate capDemo 4)).M 4 4 0 capDemo
    [0, 1, 2, 3] = [2] := by decide +kernel

end Verif.Check
