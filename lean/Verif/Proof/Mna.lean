import Verif.Model.Mna
import Verif.Proof.Circuit
import Mathlib.Algebra.BigOperators.Ring.Finset
import Mathlib.Tactic.Ring
import Mathlib.Tactic.FieldSimp

namespace Verif.Mna
open Verif.Circuit

variable {α : Type} [Field α]

/-- Current `i` flowing from node `n1` through an element to node `n2`, as seen
leaving node `r`. -/
def inj (n1 n2 : Nat) (i : α) (r : Nat) : α :=
  (if r = n1 then i else 0) - (if r = n2 then i else 0)

theorem mulVec_put {S : Nat} (M : Mat α) (x : Vec α) (i j r : Nat) (v : α) (hj : j < S) :
    mulVec S (M.put i j v) x r = mulVec S M x r + if r = i then (v - M i j) * x j else 0 := by
  unfold mulVec Mat.put
  by_cases hr : r = i
  · subst hr
    have : ∀ b ∈ Finset.range S, (if r = r ∧ b = j then v else M r b) * x b =
        M r b * x b + if b = j then (v - M r j) * x j else 0 := by
      intro b _
      by_cases hb : b = j
      · subst hb; simp; ring
      · simp [hb]
    rw [Finset.sum_congr rfl this, Finset.sum_add_distrib]
    simp [hj]
  · simp [hr]

theorem mulVec_add {S : Nat} (M : Mat α) (x : Vec α) (i j r : Nat) (v : α) (hj : j < S) :
    mulVec S (M.add i j v) x r = mulVec S M x r + if r = i then v * x j else 0 := by
  unfold Mat.add
  rw [mulVec_put _ _ _ _ _ _ hj]
  simp

theorem vec_add_apply (N : Vec α) (i r : Nat) (v : α) :
    Vec.add N i v r = N r + if r = i then v else 0 := by
  unfold Vec.add Vec.put
  by_cases h : r = i
  · subst h; simp
  · simp [h]

/-- value of equation `r` -/
def rowval (S : Nat) (s : Sys α) (x : Vec α) (r : Nat) : α := mulVec S s.M x r + s.N r

/-- All nodes of an element are below `nv`. -/
def NodesLt (nv : Nat) : Elem α → Prop
  | .R _ a b _ | .C _ a b .. | .L _ a b .. | .V _ a b _ | .I _ a b _ | .F _ a b .. | .H _ a b ..
  | .NL _ a b .. => a < nv ∧ b < nv
  | .E _ a b c d _ | .G _ a b c d _ => a < nv ∧ b < nv ∧ c < nv ∧ d < nv
  | .K _ => True

/-- Voltage-defined elements are not shorted on themselves. -/
def Proper : Elem α → Prop
  | .V _ a b _ | .L _ a b .. | .H _ a b .. | .E _ a b .. => a ≠ b
  | _ => True

/-- contribution of an element in the first loop -/
def c1 (x : Vec α) : Elem α → Nat → α
  | .R _ n1 n2 r => inj n1 n2 ((x n1 - x n2) / r)
  | .G _ n1 n2 sn1 sn2 a => inj n1 n2 (a * (x sn1 - x sn2))
  | .I _ n1 n2 src => inj n1 n2 (if src.timeDep then 0 else src.dc.getD 0)
  | _ => fun _ => 0

theorem Src.eval_static (src : Src α) (t : Option α) (h : src.timeDep = false) : src.eval t = src.dc := by
  unfold Src.eval; rw [h]

theorem stamp1_row {S : Nat} {s s' : Sys α} {e : Elem α} (x : Vec α) (he : NodesLt S e)
    (h : stamp1 s e = .ok s') (r : Nat) :
    rowval S s' x r = rowval S s x r + c1 x e r ∧ s'.size = s.size := by
  cases e with
  | R id n1 n2 v =>
    simp only [stamp1, Except.ok.injEq] at h; subst h
    obtain ⟨h1, h2⟩ := he
    refine ⟨?_, rfl⟩
    simp only [rowval, c1, inj]
    rw [mulVec_add _ _ _ _ _ _ h2, mulVec_add _ _ _ _ _ _ h1, mulVec_add _ _ _ _ _ _ h2,
      mulVec_add _ _ _ _ _ _ h1]
    split_ifs <;> ring
  | G id n1 n2 sn1 sn2 a =>
    simp only [stamp1, Except.ok.injEq] at h; subst h
    obtain ⟨h1, h2, h3, h4⟩ := he
    refine ⟨?_, rfl⟩
    simp only [rowval, c1, inj]
    rw [mulVec_add _ _ _ _ _ _ h4, mulVec_add _ _ _ _ _ _ h3, mulVec_add _ _ _ _ _ _ h4,
      mulVec_add _ _ _ _ _ _ h3]
    split_ifs <;> ring
  | I id n1 n2 src =>
    simp only [stamp1] at h
    by_cases ht : src.timeDep = true
    · simp only [ht, if_true, Except.ok.injEq] at h; subst h
      exact ⟨by simp [c1, inj, ht], rfl⟩
    · have hf : src.timeDep = false := by simpa using ht
      rw [if_neg ht, Src.eval_static src none hf] at h
      cases hd : src.dc with
      | none => rw [hd] at h; simp at h
      | some i =>
        rw [hd] at h; simp only [Except.ok.injEq] at h; subst h
        refine ⟨?_, rfl⟩
        simp only [rowval, c1, inj, hf, hd, Option.getD_some, vec_add_apply, Bool.false_eq_true,
          if_false]
        split_ifs <;> ring
  | _ => simp only [stamp1, Except.ok.injEq] at h; subst h; exact ⟨by simp [c1], rfl⟩

theorem loop1_row {S : Nat} {l : List (Elem α)} {s s' : Sys α} (x : Vec α)
    (he : ∀ e ∈ l, NodesLt S e) (h : loop stamp1 s l = .ok s') :
    s'.size = s.size ∧
    ∀ r, rowval S s' x r = rowval S s x r + (l.map (fun e => c1 x e r)).sum := by
  induction l generalizing s with
  | nil => simp only [loop, Except.ok.injEq] at h; subst h; simp
  | cons e t ih =>
    simp only [loop] at h
    cases hs : stamp1 s e with
    | error => rw [hs] at h; simp at h
    | ok s1 =>
      rw [hs] at h; simp only at h
      have := ih (fun e' h' => he e' (List.mem_cons_of_mem _ h')) h
      have h1 := fun r => stamp1_row x (he e (List.mem_cons_self ..)) hs r
      refine ⟨this.1.trans (h1 0).2, fun r => ?_⟩
      rw [this.2 r, (h1 r).1, List.map_cons, List.sum_cons]; ring

/-- nothing is stored outside the current size -/
def Supp (s : Sys α) : Prop :=
  (∀ a b, s.size ≤ a ∨ s.size ≤ b → s.M a b = 0) ∧ ∀ a, s.size ≤ a → s.N a = 0

theorem put_zero (M : Mat α) (z i j a b : Nat) (v : α) (hi : i < z) (hj : j < z)
    (hab : z ≤ a ∨ z ≤ b) : (M.put i j v) a b = M a b := by
  unfold Mat.put
  have : ¬ (a = i ∧ b = j) := by omega
  simp [this]

theorem stamp1_supp {s s' : Sys α} {e : Elem α} (he : NodesLt s.size e) (hs : Supp s)
    (h : stamp1 s e = .ok s') : Supp s' := by
  have madd : ∀ (M : Mat α) (i j a b : Nat) (v : α), i < s.size → j < s.size →
      (s.size ≤ a ∨ s.size ≤ b) → (M.add i j v) a b = M a b :=
    fun M i j a b v hi hj hab => put_zero M s.size i j a b _ hi hj hab
  cases e with
  | R id n1 n2 v =>
    simp only [stamp1, Except.ok.injEq] at h; subst h
    obtain ⟨h1, h2⟩ := he
    refine ⟨fun a b hab => ?_, hs.2⟩
    simp only at hab ⊢
    rw [madd _ _ _ _ _ _ h2 h2 hab, madd _ _ _ _ _ _ h2 h1 hab, madd _ _ _ _ _ _ h1 h2 hab,
      madd _ _ _ _ _ _ h1 h1 hab, hs.1 a b hab]
  | G id n1 n2 sn1 sn2 v =>
    simp only [stamp1, Except.ok.injEq] at h; subst h
    obtain ⟨h1, h2, h3, h4⟩ := he
    refine ⟨fun a b hab => ?_, hs.2⟩
    simp only at hab ⊢
    rw [madd _ _ _ _ _ _ h2 h4 hab, madd _ _ _ _ _ _ h2 h3 hab, madd _ _ _ _ _ _ h1 h4 hab,
      madd _ _ _ _ _ _ h1 h3 hab, hs.1 a b hab]
  | I id n1 n2 src =>
    obtain ⟨h1, h2⟩ := he
    simp only [stamp1] at h
    by_cases ht : src.timeDep = true
    · simp only [ht, if_true, Except.ok.injEq] at h; subst h; exact hs
    · rw [if_neg ht] at h
      cases hd : src.eval none with
      | none => rw [hd] at h; simp at h
      | some i =>
        rw [hd] at h; simp only [Except.ok.injEq] at h; subst h
        refine ⟨hs.1, fun a ha => ?_⟩
        simp only at ha ⊢
        rw [vec_add_apply, vec_add_apply, hs.2 a ha]
        have e1 : ¬ a = n1 := by omega
        have e2 : ¬ a = n2 := by omega
        simp [e1, e2]
  | _ => simp only [stamp1, Except.ok.injEq] at h; subst h; exact hs

theorem loop1_supp {l : List (Elem α)} {s s' : Sys α}
    (he : ∀ e ∈ l, NodesLt s.size e) (hs : Supp s) (h : loop stamp1 s l = .ok s') : Supp s' := by
  induction l generalizing s with
  | nil => simp only [loop, Except.ok.injEq] at h; subst h; exact hs
  | cons e t ih =>
    simp only [loop] at h
    cases hs1 : stamp1 s e with
    | error => rw [hs1] at h; simp at h
    | ok s1 =>
      rw [hs1] at h; simp only at h
      have hz : s1.size = s.size :=
        (stamp1_row (S := s.size) (fun _ => 0) (he e (List.mem_cons_self ..)) hs1 0).2
      exact ih (fun e' h' => hz ▸ he e' (List.mem_cons_of_mem _ h'))
        (stamp1_supp (he e (List.mem_cons_self ..)) hs hs1) h

/-- position of the voltage-defined element called `src` -/
def branchOf (circ : List (Elem α)) (src : String) : Nat :=
  (vdes circ).findIdx (fun e => upper e.id = upper src)

/-- the branch equation as coded (note the sign of the current-controlled source, and
that coefficients of a voltage-controlled source overwrite each other) -/
def lawCoded (circ : List (Elem α)) (nv : Nat) (x : Vec α) : Elem α → α
  | .V _ n1 n2 src => x n1 - x n2 - (if src.timeDep then 0 else src.dc.getD 0)
  | .L _ n1 n2 .. => x n1 - x n2
  | .E _ n1 n2 s1 s2 a =>
    (if n1 = s1 ∨ n1 = s2 then 0 else x n1) - (if n2 = s1 ∨ n2 = s2 then 0 else x n2)
      - (if s1 = s2 then 0 else a * x s1) + a * x s2
  | .H _ n1 n2 src a => x n1 - x n2 + a * x (nv + branchOf circ src)
  | _ => 0

/-- terminals (0,0 for a coupling, which has none) -/
def term : Elem α → Nat × Nat
  | .R _ a b _ | .C _ a b .. | .L _ a b .. | .V _ a b _ | .I _ a b _ | .F _ a b .. | .H _ a b ..
  | .NL _ a b .. | .E _ a b .. | .G _ a b .. => (a, b)
  | .K _ => (0, 0)

/-- contribution of an element in the second loop when the current size is `z` -/
def c2 (circ : List (Elem α)) (nv : Nat) (x : Vec α) (z : Nat) (e : Elem α) (r : Nat) : α :=
  if e.vde then inj (term e).1 (term e).2 (x z) r + (if r = z then lawCoded circ nv x e else 0)
  else 0

theorem findVdeIndex_branchOf {circ : List (Elem α)} {src : String} {k : Nat}
    (h : findVdeIndex circ src = .ok k) : k = branchOf circ src ∧ k < (vdes circ).length := by
  unfold findVdeIndex at h
  rw [findVdeIndexAux_ok] at h
  obtain ⟨j, hj, ⟨e, he, hid⟩, hmin⟩ := h
  have hj' : k = j := by omega
  subst hj'
  obtain ⟨hlt, he'⟩ := List.getElem?_eq_some_iff.1 he
  refine ⟨?_, hlt⟩
  unfold branchOf
  symm
  rw [List.findIdx_eq hlt]
  refine ⟨by simp [he', hid], ?_⟩
  intro j' hj'
  have := hmin j' ((vdes circ)[j']) hj' (by simp [List.getElem?_eq_getElem (hj'.trans hlt)])
  simp [this]

theorem kcl_row {S : Nat} {s : Sys α} (x : Vec α) (n1 n2 : Nat) (hs : Supp s)
    (h1 : n1 < s.size) (h2 : n2 < s.size) (hne : n1 ≠ n2) (hS : s.size < S) (r : Nat) :
    mulVec S ((((s.M.put n1 s.size 1).put n2 s.size (-1)).put s.size n1 1).put s.size n2 (-1)) x r
      = mulVec S s.M x r + (inj n1 n2 (x s.size) r + (if r = s.size then x n1 - x n2 else 0)) := by
  have z1 : s.M n1 s.size = 0 := hs.1 _ _ (Or.inr (le_refl _))
  have z2 : s.M n2 s.size = 0 := hs.1 _ _ (Or.inr (le_refl _))
  have z3 : s.M s.size n1 = 0 := hs.1 _ _ (Or.inl (le_refl _))
  have z4 : s.M s.size n2 = 0 := hs.1 _ _ (Or.inl (le_refl _))
  have a1 : ¬ n2 = n1 := fun e => hne e.symm
  have a2 : ¬ s.size = n1 := by omega
  have a3 : ¬ s.size = n2 := by omega
  have a4 : ¬ n2 = s.size := by omega
  have a5 : ¬ n1 = s.size := by omega
  rw [mulVec_put _ _ _ _ _ _ (h2.trans hS), mulVec_put _ _ _ _ _ _ (h1.trans hS),
    mulVec_put _ _ _ _ _ _ hS, mulVec_put _ _ _ _ _ _ hS]
  simp only [Mat.put, z1, z2, z3, z4, a1, a2, a3, a4, a5, and_true, and_false,
    false_and, if_false, inj, sub_zero, one_mul, hne]
  split_ifs <;> first | omega | ring

theorem kcl_supp {s : Sys α} {n1 n2 : Nat} (hs : Supp s) (h1 : n1 < s.size) (h2 : n2 < s.size) :
    ∀ a b, s.size + 1 ≤ a ∨ s.size + 1 ≤ b →
      ((((s.M.put n1 s.size 1).put n2 s.size (-1)).put s.size n1 1).put s.size n2 (-1)) a b = 0 := by
  intro a b hab
  rw [put_zero _ (s.size + 1) _ _ _ _ _ (by omega) (by omega) hab,
    put_zero _ (s.size + 1) _ _ _ _ _ (by omega) (by omega) hab,
    put_zero _ (s.size + 1) _ _ _ _ _ (by omega) (by omega) hab,
    put_zero _ (s.size + 1) _ _ _ _ _ (by omega) (by omega) hab]
  exact hs.1 a b (by omega)

theorem stamp2_row {S nv : Nat} {circ : List (Elem α)} {s s' : Sys α} {e : Elem α} (x : Vec α)
    (hnv : nv ≤ s.size) (he : NodesLt nv e) (hp : Proper e) (hs : Supp s)
    (hS : s.size + (if e.vde then 1 else 0) ≤ S)
    (h : stamp2 circ nv s e = .ok s') :
    s'.size = s.size + (if e.vde then 1 else 0) ∧ Supp s' ∧
    ∀ r, rowval S s' x r = rowval S s x r + c2 circ nv x s.size e r := by
  cases e with
  | V id n1 n2 src =>
    obtain ⟨h1, h2⟩ := he
    simp only [Elem.vde, if_true] at hS
    have hr := kcl_row x n1 n2 hs (by omega) (by omega) hp (S := S) (by omega)
    have hz := kcl_supp hs (n1 := n1) (n2 := n2) (by omega) (by omega)
    simp only [stamp2] at h
    by_cases ht : src.timeDep = true
    · simp only [ht, if_true, Except.ok.injEq] at h; subst h
      refine ⟨by simp [Elem.vde], ⟨hz, fun a ha => hs.2 a (by simp only at ha; omega)⟩, fun r => ?_⟩
      simp only [rowval, hr r, c2, Elem.vde, term, lawCoded, ht, if_true, sub_zero]
      ring
    · have hf : src.timeDep = false := by simpa using ht
      rw [if_neg ht, Src.eval_static src none hf] at h
      cases hd : src.dc with
      | none => rw [hd] at h; simp at h
      | some i =>
        rw [hd] at h; simp only [Except.ok.injEq] at h; subst h
        refine ⟨by simp [Elem.vde], ⟨hz, fun a ha => ?_⟩, fun r => ?_⟩
        · simp only at ha
          have : ¬ a = s.size := by omega
          simp only [Vec.put, this, if_false]
          exact hs.2 a (by omega)
        · simp only [rowval, hr r, c2, Elem.vde, term, lawCoded, hf, hd, if_true, Vec.put,
            Option.getD_some, Bool.false_eq_true, if_false]
          by_cases hrz : r = s.size
          · subst hrz
            simp [hs.2 s.size (le_refl _)]; ring
          · simp [hrz]; ring
  | L id n1 n2 v ic cp =>
    obtain ⟨h1, h2⟩ := he
    simp only [Elem.vde, if_true] at hS
    have hr := kcl_row x n1 n2 hs (by omega) (by omega) hp (S := S) (by omega)
    have hz := kcl_supp hs (n1 := n1) (n2 := n2) (by omega) (by omega)
    simp only [stamp2, Except.ok.injEq] at h; subst h
    refine ⟨by simp [Elem.vde], ⟨hz, fun a ha => hs.2 a (by simp only at ha; omega)⟩, fun r => ?_⟩
    simp only [rowval, hr r, c2, Elem.vde, term, lawCoded, if_true]
    ring
  | E id n1 n2 s1 s2 v =>
    obtain ⟨h1, h2, h3, h4⟩ := he
    simp only [Elem.vde, if_true] at hS
    have hr := kcl_row x n1 n2 hs (by omega) (by omega) hp (S := S) (by omega)
    have hz := kcl_supp hs (n1 := n1) (n2 := n2) (by omega) (by omega)
    simp only [stamp2, Except.ok.injEq] at h; subst h
    refine ⟨by simp [Elem.vde], ⟨fun a b hab => ?_, fun a ha => hs.2 a (by simp only at ha; omega)⟩,
      fun r => ?_⟩
    · simp only at hab ⊢
      rw [put_zero _ (s.size + 1) _ _ _ _ _ (by omega) (by omega) hab,
        put_zero _ (s.size + 1) _ _ _ _ _ (by omega) (by omega) hab]
      exact hz a b hab
    · have z1 : s.M s.size s1 = 0 := hs.1 _ _ (Or.inl (le_refl _))
      have z2 : s.M s.size s2 = 0 := hs.1 _ _ (Or.inl (le_refl _))
      have a1 : ¬ s.size = n1 := by omega
      have a2 : ¬ s.size = n2 := by omega
      simp only [rowval]
      rw [mulVec_put _ _ _ _ _ _ (by omega), mulVec_put _ _ _ _ _ _ (by omega), hr r]
      simp only [c2, Elem.vde, term, lawCoded, if_true, Mat.put, a1, a2, z1, z2,
        true_and, false_and, if_false]
      change n1 ≠ n2 at hp
      by_cases hrz : r = s.size
      · simp only [hrz, if_true]
        by_cases q1 : s1 = s2
        · subst q1
          by_cases q2 : n1 = s1
          · subst q2; simp [hp, hp.symm]; ring
          · by_cases q3 : n2 = s1
            · subst q3; simp [hp, hp.symm]; ring
            · have q2' : ¬ s1 = n1 := fun e => q2 e.symm
              have q3' : ¬ s1 = n2 := fun e => q3 e.symm
              simp [q2, q3, q2', q3']; ring
        · have q1' : ¬ s2 = s1 := fun e => q1 e.symm
          by_cases q2 : n1 = s1
          · subst q2
            by_cases q3 : n2 = s2
            · subst q3; simp [hp, hp.symm]; ring
            · have q3' : ¬ s2 = n2 := fun e => q3 e.symm
              simp [hp, hp.symm, q1, q1', q3, q3']; ring
          · have q2' : ¬ s1 = n1 := fun e => q2 e.symm
            by_cases q3 : n1 = s2
            · subst q3
              by_cases q4 : n2 = s1
              · subst q4; simp [hp, hp.symm]; ring
              · have q4' : ¬ s1 = n2 := fun e => q4 e.symm
                simp [hp, hp.symm, q1, q1', q4, q4']; ring
            · have q3' : ¬ s2 = n1 := fun e => q3 e.symm
              by_cases q4 : n2 = s1
              · subst q4; simp [q1, q1', q2, q2', q3, q3']; ring
              · have q4' : ¬ s1 = n2 := fun e => q4 e.symm
                by_cases q5 : n2 = s2
                · subst q5; simp [q1, q1', q2, q2', q3, q3']; ring
                · have q5' : ¬ s2 = n2 := fun e => q5 e.symm
                  simp [q1, q1', q2, q2', q3, q3', q4, q4', q5, q5']; ring
      · simp [hrz]; ring
  | H id n1 n2 src v =>
    obtain ⟨h1, h2⟩ := he
    simp only [Elem.vde, if_true] at hS
    have hr := kcl_row x n1 n2 hs (by omega) (by omega) hp (S := S) (by omega)
    have hz := kcl_supp hs (n1 := n1) (n2 := n2) (by omega) (by omega)
    simp only [stamp2] at h
    cases hk : findVdeIndex circ src with
    | error => rw [hk] at h; simp at h
    | ok k =>
      rw [hk] at h
      have hb := (findVdeIndex_branchOf hk).1
      simp only at h
      split at h
      · rename_i hlt
        simp only [Except.ok.injEq] at h; subst h
        refine ⟨by simp [Elem.vde], ⟨fun a b hab => ?_,
          fun a ha => hs.2 a (by simp only at ha; omega)⟩, fun r => ?_⟩
        · simp only at hab ⊢
          rw [put_zero _ (s.size + 1) _ _ _ _ _ (by omega) (by omega) hab]
          exact hz a b hab
        · have z1 : s.M s.size (nv + k) = 0 := hs.1 _ _ (Or.inl (le_refl _))
          have a1 : ¬ s.size = n1 := by omega
          have a2 : ¬ s.size = n2 := by omega
          have a3 : ¬ nv + k = n1 := by omega
          have a4 : ¬ nv + k = n2 := by omega
          simp only [rowval]
          rw [mulVec_put _ _ _ _ _ _ (by omega), hr r]
          simp only [c2, Elem.vde, term, lawCoded, if_true, Mat.put, a1, a2, a3, a4, z1, ← hb,
            and_false, false_and, if_false, sub_zero]
          by_cases hrz : r = s.size
          · simp [hrz]; ring
          · simp [hrz]; ring
      · simp at h
  | _ =>
    simp only [stamp2, Except.ok.injEq] at h; subst h
    exact ⟨by simp [Elem.vde], hs, fun r => by simp [c2, Elem.vde]⟩

/-- sum of second-loop contributions, the current size starting from `z` -/
def c2sum (circ : List (Elem α)) (nv : Nat) (x : Vec α) : List (Elem α) → Nat → Nat → α
  | [], _, _ => 0
  | e :: t, z, r => c2 circ nv x z e r + c2sum circ nv x t (z + if e.vde then 1 else 0) r

theorem vdes_cons_length (e : Elem α) (t : List (Elem α)) :
    (vdes (e :: t)).length = (if e.vde then 1 else 0) + (vdes t).length := by
  rw [vdes_cons]; split <;> simp; omega

theorem loop2_row {S nv : Nat} {circ l : List (Elem α)} {s s' : Sys α} (x : Vec α)
    (hnv : nv ≤ s.size) (he : ∀ e ∈ l, NodesLt nv e) (hp : ∀ e ∈ l, Proper e) (hs : Supp s)
    (hS : s.size + (vdes l).length ≤ S)
    (h : loop (stamp2 circ nv) s l = .ok s') :
    s'.size = s.size + (vdes l).length ∧ Supp s' ∧
    ∀ r, rowval S s' x r = rowval S s x r + c2sum circ nv x l s.size r := by
  induction l generalizing s with
  | nil =>
    simp only [loop, Except.ok.injEq] at h; subst h
    exact ⟨by simp [vdes_nil], hs, fun r => by simp [c2sum]⟩
  | cons e t ih =>
    simp only [loop] at h
    rw [vdes_cons_length] at hS ⊢
    cases hs1 : stamp2 circ nv s e with
    | error => rw [hs1] at h; simp at h
    | ok s1 =>
      rw [hs1] at h; simp only at h
      have hm := List.mem_cons_self (a := e) (l := t)
      obtain ⟨z, su, rw1⟩ := stamp2_row (S := S) x hnv (he e hm) (hp e hm) hs (by omega) hs1
      obtain ⟨z', su', rw2⟩ := ih (s := s1) (by omega)
        (fun e' h' => he e' (List.mem_cons_of_mem _ h'))
        (fun e' h' => hp e' (List.mem_cons_of_mem _ h')) su (by omega) h
      refine ⟨by omega, su', fun r => ?_⟩
      rw [rw2 r, rw1 r, c2sum, z]; ring

/-- contribution of an element in the third loop -/
def c3 (circ : List (Elem α)) (nv : Nat) (x : Vec α) : Elem α → Nat → α
  | .F _ n1 n2 src a => inj n1 n2 (a * x (nv + branchOf circ src))
  | _ => fun _ => 0

theorem stamp3_row {S nv : Nat} {circ : List (Elem α)} {s s' : Sys α} {e : Elem α} (x : Vec α)
    (hS : nv + (vdes circ).length ≤ S)
    (h : stamp3 circ nv s e = .ok s') (r : Nat) :
    rowval S s' x r = rowval S s x r + c3 circ nv x e r ∧ s'.size = s.size := by
  cases e with
  | F id n1 n2 src a =>
    simp only [stamp3] at h
    cases hk : findVdeIndex circ src with
    | error => rw [hk] at h; simp at h
    | ok k =>
      rw [hk] at h; simp only [Except.ok.injEq] at h; subst h
      obtain ⟨hb, hlt⟩ := findVdeIndex_branchOf hk
      refine ⟨?_, rfl⟩
      simp only [rowval, c3, inj, ← hb]
      rw [mulVec_add _ _ _ _ _ _ (by omega), mulVec_add _ _ _ _ _ _ (by omega)]
      split_ifs <;> ring
  | _ => simp only [stamp3, Except.ok.injEq] at h; subst h; exact ⟨by simp [c3], rfl⟩

theorem loop3_row {S nv : Nat} {circ l : List (Elem α)} {s s' : Sys α} (x : Vec α)
    (hS : nv + (vdes circ).length ≤ S) (h : loop (stamp3 circ nv) s l = .ok s') :
    s'.size = s.size ∧
    ∀ r, rowval S s' x r = rowval S s x r + (l.map (fun e => c3 circ nv x e r)).sum := by
  induction l generalizing s with
  | nil => simp only [loop, Except.ok.injEq] at h; subst h; simp
  | cons e t ih =>
    simp only [loop] at h
    cases hs : stamp3 circ nv s e with
    | error => rw [hs] at h; simp at h
    | ok s1 =>
      rw [hs] at h; simp only at h
      have := ih h
      have h1 := fun r => stamp3_row x hS hs r
      refine ⟨this.1.trans (h1 0).2, fun r => ?_⟩
      rw [this.2 r, (h1 r).1, List.map_cons, List.sum_cons]; ring

/-- The whole assembly, equation by equation. -/
theorem generate_row {nv : Nat} {circ : List (Elem α)} {s : Sys α} (x : Vec α)
    (he : ∀ e ∈ circ, NodesLt nv e) (hp : ∀ e ∈ circ, Proper e)
    (h : generate circ nv = .ok s) :
    s.size = nv + (vdes circ).length ∧
    ∀ r, mulVec s.size s.M x r + s.N r =
      (circ.map (fun e => c1 x e r)).sum + c2sum circ nv x circ nv r +
      (circ.map (fun e => c3 circ nv x e r)).sum := by
  unfold generate at h
  cases h1 : loop stamp1 (⟨nv, fun _ _ => 0, fun _ => 0⟩ : Sys α) circ with
  | error => rw [h1] at h; simp at h
  | ok s1 =>
    rw [h1] at h; simp only at h
    cases h2 : loop (stamp2 circ nv) s1 circ with
    | error => rw [h2] at h; simp at h
    | ok s2 =>
      rw [h2] at h; simp only at h
      have hw : ∀ e ∈ circ, NodesLt (nv + (vdes circ).length) e := by
        intro e hm
        have := he e hm
        cases e <;> simp only [NodesLt] at this ⊢ <;> omega
      obtain ⟨z1, r1⟩ := loop1_row (S := nv + (vdes circ).length) x hw h1
      have su1 := loop1_supp (s := ⟨nv, fun _ _ => 0, fun _ => 0⟩) he
        ⟨fun _ _ _ => rfl, fun _ _ => rfl⟩ h1
      simp only at z1
      obtain ⟨z2, su2, r2⟩ := loop2_row (S := nv + (vdes circ).length) x (by omega) he hp su1
        (by omega) h2
      obtain ⟨z3, r3⟩ := loop3_row (S := nv + (vdes circ).length) x (le_refl _) h
      have hz : s.size = nv + (vdes circ).length := by omega
      refine ⟨hz, fun r => ?_⟩
      rw [hz]
      have := r3 r
      rw [r2 r, r1 r] at this
      simp only [rowval, mulVec, zero_mul, Finset.sum_const_zero, zero_add] at this
      simp only [mulVec]
      rw [this, z1]

end Verif.Mna
