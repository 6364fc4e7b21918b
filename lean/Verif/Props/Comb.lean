import Verif.Model.Comb
import Mathlib.Data.List.Sort
import Mathlib.Data.List.Sublists
import Mathlib.Data.List.Range
import Mathlib.Data.List.Nodup

/-!
Property C21 (combinations).
-/

namespace Verif.Comb

variable {α : Type}

/-- All choices of `k` positions, in lexicographic order. -/
def combos : Nat → List α → List (List α)
  | 0, _ => [[]]
  | _ + 1, [] => []
  | k + 1, a :: l => (combos k l).map (a :: ·) ++ combos (k + 1) l

theorem combos_short : ∀ (k : Nat) (l : List α), l.length < k → combos k l = []
  | 0, _, h => by omega
  | k + 1, [], _ => rfl
  | k + 1, a :: l, h => by
    simp only [combos, List.length_cons] at h ⊢
    rw [combos_short k l (by omega), combos_short (k + 1) l (by omega)]
    rfl

theorem combos_ne_nil : ∀ (k : Nat) (l : List α), k ≤ l.length → combos k l ≠ []
  | 0, _, _ => by simp [combos]
  | k + 1, [], h => by simp at h
  | k + 1, a :: l, h => by
    have := combos_ne_nil k l (by simpa using h)
    simp [combos, this]

/-- What the iterator still has to give. -/
def remaining : (k : Nat) → St α k → List (List α)
  | 0, (L, i) => (L.drop i).map fun a => [a]
  | k + 1, (L, i, none) => combos (k + 2) (L.drop i)
  | k + 1, (L, i, some s) =>
    (remaining k s).map (fun r => (L.drop i).take 1 ++ r) ++ combos (k + 2) (L.drop (i + 1))

/-- States that occur. -/
def Valid : (k : Nat) → St α k → Prop
  | 0, _ => True
  | k + 1, (L, i, none) => i + k + 2 ≤ L.length
  | k + 1, (L, i, some s) => i + k + 2 ≤ L.length ∧ Valid k s

theorem valid_fresh (k : Nat) (L : List α) (h : k + 1 ≤ L.length) : Valid k (fresh k L) := by
  cases k with
  | zero => trivial
  | succ k => simpa [Valid, fresh] using h

theorem combos_one (l : List α) : combos 1 l = l.map fun a => [a] := by
  induction l with
  | nil => rfl
  | cons a l ih => simp [combos, ih]

theorem remaining_fresh (k : Nat) (L : List α) : remaining k (fresh k L) = combos (k + 1) L := by
  cases k with
  | zero => simp [remaining, fresh, combos_one]
  | succ k => simp [remaining, fresh]

theorem remaining_zero (L : List α) (i : Nat) :
    remaining 0 ((L, i) : List α × Nat) = (L.drop i).map fun a => [a] := rfl

theorem remaining_none (k : Nat) (L : List α) (i : Nat) :
    remaining (k + 1) ((L, i, none) : List α × Nat × Option (St α k)) =
      combos (k + 2) (L.drop i) := rfl

theorem remaining_some (k : Nat) (L : List α) (i : Nat) (s : St α k) :
    remaining (k + 1) ((L, i, some s) : List α × Nat × Option (St α k)) =
      (remaining k s).map (fun r => (L.drop i).take 1 ++ r) ++
        combos (k + 2) (L.drop (i + 1)) := rfl

theorem combos_drop (k : Nat) (L : List α) (i : Nat) (h : i < L.length) :
    combos (k + 2) (L.drop i) =
      (combos (k + 1) (L.drop (i + 1))).map (fun r => (L.drop i).take 1 ++ r) ++
        combos (k + 2) (L.drop (i + 1)) := by
  have e : L.drop i = L[i] :: L.drop (i + 1) := List.drop_eq_getElem_cons h
  generalize L.drop (i + 1) = t at *
  rw [e]
  rfl

/-- One step gives the first remaining value. -/
theorem next_spec (k : Nat) (s : St α k) (hv : Valid k s) :
    (next k s = none → remaining k s = []) ∧
    ∀ v s', next k s = some (v, s') → remaining k s = v :: remaining k s' ∧ Valid k s' := by
  induction k with
  | zero =>
    obtain ⟨L, i⟩ := s
    have e : next 0 ((L, i) : List α × Nat) =
      (L[i]?).map fun cur => (([cur], (L, i + 1)) : List α × (List α × Nat)) := rfl
    constructor
    · intro h
      rw [e] at h
      rw [remaining_zero]
      cases hL : L[i]? with
      | none => simpa using hL
      | some a => rw [hL] at h; cases h
    · intro v s' h
      rw [e] at h
      cases hL : L[i]? with
      | none => rw [hL] at h; cases h
      | some a =>
        rw [hL] at h
        cases h
        obtain ⟨hi, rfl⟩ := List.getElem?_eq_some_iff.1 hL
        refine ⟨?_, trivial⟩
        rw [remaining_zero, remaining_zero, List.drop_eq_getElem_cons hi]
        rfl
  | succ k ih =>
    have aux : ∀ (fuel : Nat) (L : List α) (i : Nat) (sub : Option (St α k)),
        Valid (k + 1) (L, i, sub) → L.length - i < fuel →
        (advance (next k) fuel (L, i, sub) = none → remaining (k + 1) (L, i, sub) = []) ∧
        ∀ v s', advance (next k) fuel (L, i, sub) = some (v, s') →
          remaining (k + 1) (L, i, sub) = v :: remaining (k + 1) s' ∧ Valid (k + 1) s' := by
      intro fuel
      induction fuel with
      | zero => intro L i sub _ h; omega
      | succ fuel ihf =>
        intro L i sub hv hf
        -- the inner iterator in use
        have hlen : i + k + 2 ≤ L.length := by
          cases sub with
          | none => exact hv
          | some s => exact hv.1
        have hs : Valid k (sub.getD (fresh k (L.drop (i + 1)))) := by
          cases sub with
          | none =>
            refine valid_fresh _ _ ?_
            rw [List.length_drop]; omega
          | some s => exact hv.2
        have hrem : remaining (k + 1) (L, i, sub) =
            (remaining k (sub.getD (fresh k (L.drop (i + 1))))).map
              (fun r => (L.drop i).take 1 ++ r) ++ combos (k + 2) (L.drop (i + 1)) := by
          cases sub with
          | none =>
            rw [remaining_none, Option.getD_none, remaining_fresh,
              combos_drop _ _ _ (show i < L.length by omega)]
          | some s => rw [remaining_some]; rfl
        have hadv : advance (next k) (fuel + 1) (L, i, sub) =
            match next k (sub.getD (fresh k (L.drop (i + 1)))) with
            | some (nxt, s') => (L[i]?).map fun cur => (cur :: nxt, (L, i, some s'))
            | none =>
              if i < L.length - (k + 2) then
                advance (next k) fuel (L, i + 1, some (fresh k (L.drop (i + 2))))
              else none := rfl
        rw [hadv, hrem]
        generalize sub.getD (fresh k (L.drop (i + 1))) = s at hs
        have hi := ih s hs
        have hLi : L[i]? = some (L[i]'(by omega)) := List.getElem?_eq_getElem (by omega)
        have hd : L.drop i = L[i]'(by omega) :: L.drop (i + 1) :=
          List.drop_eq_getElem_cons (by omega)
        cases hn : next k s with
        | some r =>
          obtain ⟨nxt, s'⟩ := r
          obtain ⟨h1, h2⟩ := hi.2 nxt s' hn
          simp only [hLi, Option.map_some, reduceCtorEq, false_implies, true_and]
          intro v t ht
          cases ht
          refine ⟨?_, hlen, h2⟩
          rw [remaining_some, h1]
          have e : (L.drop i).take 1 ++ nxt = L[i]'(by omega) :: nxt := by rw [hd]; rfl
          rw [List.map_cons, e, List.cons_append]
        | none =>
          simp only
          rw [hi.1 hn, List.map_nil, List.nil_append]
          by_cases hlt : i < L.length - (k + 2)
          · rw [if_pos hlt]
            have hv' : Valid (k + 1) (L, i + 1, some (fresh k (L.drop (i + 2)))) := by
              refine ⟨by omega, valid_fresh _ _ ?_⟩
              rw [List.length_drop]; omega
            have := ihf L (i + 1) (some (fresh k (L.drop (i + 2)))) hv' (by omega)
            rw [remaining_some, remaining_fresh] at this
            rw [combos_drop _ _ _ (show i + 1 < L.length by omega)]
            exact this
          · rw [if_neg hlt, combos_short _ _ (by rw [List.length_drop]; omega)]
            simp
    obtain ⟨L, i, sub⟩ := s
    exact aux (L.length + 1) L i sub hv (by omega)

/-- The whole iteration. -/
theorem collect_spec (k : Nat) (fuel : Nat) (s : St α k) (hv : Valid k s)
    (hf : (remaining k s).length < fuel) : collect k fuel s = remaining k s := by
  induction fuel generalizing s with
  | zero => omega
  | succ fuel ih =>
    unfold collect
    have h := next_spec k s hv
    cases hn : next k s with
    | none => simp only; exact (h.1 hn).symm
    | some r =>
      obtain ⟨v, s'⟩ := r
      obtain ⟨h1, h2⟩ := h.2 v s' hn
      simp only
      rw [h1] at hf ⊢
      rw [ih s' h2 (by simpa using hf)]

theorem mem_combos (k : Nat) (L l : List α) : l ∈ combos k L ↔ l.Sublist L ∧ l.length = k := by
  induction L generalizing k l with
  | nil =>
    cases k with
    | zero => simp [combos, List.length_eq_zero_iff]
    | succ k =>
      simp only [combos, List.not_mem_nil, List.sublist_nil, false_iff, not_and]
      rintro rfl; simp
  | cons a L ih =>
    cases k with
    | zero =>
      simp only [combos, List.mem_singleton, List.length_eq_zero_iff]
      constructor
      · rintro rfl; exact ⟨List.nil_sublist _, rfl⟩
      · exact fun h => h.2
    | succ k =>
      simp only [combos, List.mem_append, List.mem_map, ih]
      constructor
      · rintro (⟨r, ⟨h1, h2⟩, rfl⟩ | ⟨h1, h2⟩)
        · exact ⟨h1.cons_cons a, by simp [h2]⟩
        · exact ⟨h1.cons a, h2⟩
      · rintro ⟨h1, h2⟩
        cases h1 with
        | cons _ h => exact Or.inr ⟨h, h2⟩
        | cons_cons _ h => exact Or.inl ⟨_, ⟨h, by simpa using h2⟩, rfl⟩

theorem nodup_combos (k : Nat) (L : List α) (h : L.Nodup) : (combos k L).Nodup := by
  induction L generalizing k with
  | nil => cases k <;> simp [combos]
  | cons a L ih =>
    cases k with
    | zero => simp [combos]
    | succ k =>
      rw [List.nodup_cons] at h
      simp only [combos]
      refine List.Nodup.append ?_ (ih (k + 1) h.2) ?_
      · exact (ih k h.2).map (fun _ _ e => by simpa using e)
      · intro x hx hx'
        obtain ⟨r, -, rfl⟩ := List.mem_map.1 hx
        have := ((mem_combos _ _ _).1 hx').1
        exact h.1 (this.subset (by simp))

theorem combos_map {β : Type} (f : α → β) (k : Nat) (L : List α) :
    combos k (L.map f) = (combos k L).map (List.map f) := by
  induction L generalizing k with
  | nil => cases k <;> simp [combos]
  | cons a L ih =>
    cases k with
    | zero => simp [combos]
    | succ k => simp [combos, ih, Function.comp_def]

/-- C21: for `1 <= k <= len(L)` the iterator gives, without end or repetition errors, one
list per strictly increasing choice of `k` positions: the list of chosen positions has no
duplicates, contains every choice, and nothing else. -/
theorem C21_every_choice_once (L : List α) (k : Int) (h1 : 1 ≤ k) (hk : k ≤ L.length) :
    ∃ s, init L k = some s ∧ ∃ choices : List (List (Fin L.length)),
      choices.Nodup ∧
      (∀ c, c ∈ choices ↔ c.Pairwise (· < ·) ∧ (c.length : Int) = k) ∧
      ∀ fuel, choices.length < fuel →
        collect _ fuel s = choices.map (List.map fun i => L[i]) := by
  obtain ⟨n, rfl⟩ : ∃ n : Nat, k = n + 1 := ⟨(k - 1).toNat, by omega⟩
  refine ⟨fresh _ L, ?_, combos (n + 1) (List.finRange L.length),
    nodup_combos _ _ (List.nodup_finRange _), ?_, ?_⟩
  · unfold init
    rw [if_neg (by omega), if_neg (by omega)]
  · intro c
    rw [mem_combos]
    constructor
    · rintro ⟨hs, hl⟩
      refine ⟨?_, by omega⟩
      exact (List.pairwise_lt_finRange _).sublist hs
    · rintro ⟨hp, hl⟩
      refine ⟨?_, by omega⟩
      apply List.sublist_of_subperm_of_pairwise (r := fun a b : Fin L.length => a < b) _ hp
        (List.pairwise_lt_finRange _)
      exact List.subperm_of_subset (hp.imp (fun h => (ne_of_lt h))) (fun x _ => List.mem_finRange x)
  · intro fuel hf
    have e : (((n : Int) + 1).toNat - 1) = n := by omega
    have hL : L = (List.finRange L.length).map fun i => L[i] := by
      apply List.ext_getElem <;> simp
    have key : remaining _ (fresh (((n : Int) + 1).toNat - 1) L) =
        (combos (n + 1) (List.finRange L.length)).map (List.map fun i => L[i]) := by
      rw [remaining_fresh, e, ← combos_map]
      conv_lhs => rw [hL]
    rw [collect_spec _ _ _ (valid_fresh _ _ (by omega)) (by rw [key]; simpa using hf), key]

/-- C21: any other size is refused. -/
theorem C21_refused (L : List α) (k : Int) :
    init L k = none ↔ k < 1 ∨ (L.length : Int) < k := by
  unfold init
  split
  · simp; omega
  · split
    · simp; omega
    · simp; omega

/-- C21: in terms of the values: exactly the sublists of length `k` are given. -/
theorem C21_sublists (L : List α) (k : Int) (s) (h : init L k = some s) :
    ∃ n, ∀ fuel, n < fuel → ∀ l, l ∈ collect _ fuel s ↔ l.Sublist L ∧ (l.length : Int) = k := by
  have hk : ¬ (L.length : Int) < k ∧ ¬ k ≤ 0 := by
    constructor <;> intro hc
    · have := (C21_refused L k).2 (Or.inr hc); rw [h] at this; simp at this
    · have := (C21_refused L k).2 (Or.inl (by omega)); rw [h] at this; simp at this
  have hs : s = fresh _ L := by
    unfold init at h
    rw [if_neg hk.1, if_neg hk.2] at h
    exact (Option.some.inj h).symm
  subst hs
  refine ⟨(combos k.toNat L).length, fun fuel hf l => ?_⟩
  have e : k.toNat - 1 + 1 = k.toNat := by omega
  rw [collect_spec _ _ _ (valid_fresh _ _ (by omega)) (by rw [remaining_fresh, e]; exact hf),
    remaining_fresh, e, mem_combos]
  constructor
  · rintro ⟨h1, h2⟩; exact ⟨h1, by omega⟩
  · rintro ⟨h1, h2⟩; exact ⟨h1, by omega⟩

example : (init [1, 2, 3, 4] 2).map (collect _ 9) =
    some [[1, 2], [1, 3], [1, 4], [2, 3], [2, 4], [3, 4]] := by decide +kernel
example : (init ["a", "b", "c"] 3).map (collect _ 9) = some [["a", "b", "c"]] := by decide +kernel

end Verif.Comb
