import Verif.Model.Memo
import Mathlib.Tactic.Common

/-!
Properties C23 (memoising pure functions) and C24 (state changes).
-/

namespace Verif.Memo

variable {σ κ ν ε : Type} [DecidableEq κ]

theorem lookup_append (c : Cache κ ν) (k : κ) (v : ν) (k' : κ) (w : ν)
    (h : c.lookup k = some v) : (c ++ [(k', w)]).lookup k = some v := by
  induction c with
  | nil => simp at h
  | cons p c ih =>
    obtain ⟨a, b⟩ := p
    simp only [List.cons_append, List.lookup_cons] at h ⊢
    split <;> rename_i he <;> rw [he] at h
    · exact h
    · exact ih h

theorem lookup_append_new (c : Cache κ ν) (k : κ) (v : ν) (h : c.lookup k = none) :
    (c ++ [(k, v)]).lookup k = some v := by
  induction c with
  | nil => simp
  | cons p c ih =>
    obtain ⟨a, b⟩ := p
    simp only [List.cons_append, List.lookup_cons] at h ⊢
    split <;> rename_i he <;> rw [he] at h
    · cases h
    · exact ih h

theorem mem_of_lookup (c : Cache κ ν) (k : κ) (v : ν) (h : c.lookup k = some v) : (k, v) ∈ c := by
  induction c with
  | nil => simp at h
  | cons p c ih =>
    obtain ⟨a, b⟩ := p
    simp only [List.lookup_cons] at h
    split at h
    · rename_i he
      simp only [beq_iff_eq] at he
      cases h; subst he; simp
    · exact List.mem_cons_of_mem _ (ih h)

/-- Entries of the new cache are old entries or the value just computed. -/
theorem call_mem (limit : Option Nat) (f : σ → κ → Except ε ν) (c : Cache κ ν) (s : σ) (k : κ)
    (p : κ × ν) (hp : p ∈ (call limit f c s k).2) : p ∈ c ∨ (p.1 = k ∧ f s k = .ok p.2) := by
  unfold call at hp
  split at hp
  · exact Or.inl hp
  · split at hp
    · exact Or.inl hp
    · rename_i v hv
      have key : p ∈ c ++ [(k, v)] → p ∈ c ∨ (p.1 = k ∧ f s k = .ok p.2) := by
        intro h
        rcases List.mem_append.1 h with h | h
        · exact Or.inl h
        · rw [List.mem_singleton] at h
          subst h
          exact Or.inr ⟨rfl, hv⟩
      simp only at hp
      split at hp
      · split at hp
        · exact key (List.dropLast_subset _ hp)
        · exact key hp
      · exact key hp

/-- C24: what a call returns is always the value the function had in the state of this call
or of some earlier call with the same key. -/
theorem call_result (limit : Option Nat) (f : σ → κ → Except ε ν) (c : Cache κ ν) (s : σ) (k : κ) :
    (∃ v, (k, v) ∈ c ∧ (call limit f c s k).1 = .ok v) ∨ (call limit f c s k).1 = f s k := by
  unfold call
  cases h : c.lookup k with
  | some v => exact Or.inl ⟨v, mem_of_lookup c k v h, rfl⟩
  | none =>
    right
    simp only
    cases hf : f s k with
    | error e => rfl
    | ok v => cases limit <;> rfl

/-- C23: for a function that does not read any state, every call returns what a direct call
returns, for every history and every cache limit, including calls that raise. -/
theorem C23_transparent (limit : Option Nat) (f : κ → Except ε ν) (h : List (σ × κ)) :
    (calls limit (fun _ => f) [] h).1 = h.map (fun p => f p.2) := by
  have aux : ∀ (h : List (σ × κ)) (c : Cache κ ν), (∀ p ∈ c, f p.1 = .ok p.2) →
      (calls limit (fun _ => f) c h).1 = h.map (fun p => f p.2) := by
    intro h
    induction h with
    | nil => intro c _; rfl
    | cons a h ih =>
      intro c hc
      obtain ⟨s, k⟩ := a
      simp only [calls, List.map_cons]
      congr 1
      · rcases call_result limit (fun _ : σ => f) c s k with ⟨v, hv, hr⟩ | hr
        · rw [hr]; exact (hc _ hv).symm
        · exact hr
      · apply ih
        intro p hp
        rcases call_mem limit _ c s k p hp with hp | ⟨h1, h2⟩
        · exact hc p hp
        · rw [h1]; exact h2
  exact aux h [] (by simp)

/-- C23: the cache never grows past its limit. -/
theorem C23_bounded (n : Nat) (f : σ → κ → Except ε ν) (h : List (σ × κ)) :
    (calls (some n) f [] h).2.length ≤ n := by
  have one : ∀ (c : Cache κ ν) (s : σ) (k : κ), c.length ≤ n →
      (call (some n) f c s k).2.length ≤ n := by
    intro c s k hc
    unfold call
    split
    · exact hc
    · split
      · exact hc
      · simp only
        split
        · simpa using hc
        · omega
  have aux : ∀ (h : List (σ × κ)) (c : Cache κ ν), c.length ≤ n →
      (calls (some n) f c h).2.length ≤ n := by
    intro h
    induction h with
    | nil => intro c hc; exact hc
    | cons a h ih =>
      intro c hc
      exact ih _ (one c a.1 a.2 hc)
  exact aux h [] (by simp)

/-- C23: keys are stored at most once. -/
theorem C23_keys_nodup (limit : Option Nat) (f : σ → κ → Except ε ν) (h : List (σ × κ)) :
    ((calls limit f [] h).2.map Prod.fst).Nodup := by
  have hl : ∀ (c : Cache κ ν) (k : κ), c.lookup k = none → k ∉ c.map Prod.fst := by
    intro c k
    induction c with
    | nil => simp
    | cons p c ih =>
      obtain ⟨a, b⟩ := p
      intro h
      simp only [List.lookup_cons] at h
      split at h
      · cases h
      · rename_i he
        simp only [beq_eq_false_iff_ne] at he
        simp only [List.map_cons, List.mem_cons, not_or]
        exact ⟨he, ih h⟩
  have one : ∀ (c : Cache κ ν) (s : σ) (k : κ), (c.map Prod.fst).Nodup →
      ((call limit f c s k).2.map Prod.fst).Nodup := by
    intro c s k hc
    unfold call
    split
    · exact hc
    · rename_i hn
      split
      · exact hc
      · rename_i v _
        have hnew : ((c ++ [(k, v)]).map Prod.fst).Nodup := by
          simp only [List.map_append, List.map_cons, List.map_nil]
          rw [List.nodup_append]
          refine ⟨hc, by simp, ?_⟩
          intro a ha b hb
          simp only [List.mem_singleton] at hb
          subst hb
          rintro rfl
          exact hl c _ hn ha
        simp only
        split
        · simp only
          split
          · simpa using hc
          · exact hnew
        · exact hnew
  have aux : ∀ (h : List (σ × κ)) (c : Cache κ ν), (c.map Prod.fst).Nodup →
      ((calls limit f c h).2.map Prod.fst).Nodup := by
    intro h
    induction h with
    | nil => intro c hc; exact hc
    | cons a h ih =>
      intro c hc
      exact ih _ (one c a.1 a.2 hc)
  exact aux h [] (by simp)

/-- C23: a value is kept while there is room for it, and then the function is not evaluated again. -/
theorem C23_kept (n : Nat) (f g : σ → κ → Except ε ν) (c : Cache κ ν) (s s' : σ) (k : κ) (v : ν)
    (hn : c.length < n) (hl : c.lookup k = none) (hv : f s k = .ok v) :
    (call (some n) f c s k).2 = c ++ [(k, v)] ∧ (call (some n) g (call (some n) f c s k).2 s' k).1 = .ok v := by
  have h1 : (call (some n) f c s k).2 = c ++ [(k, v)] := by
    unfold call
    rw [hl, hv]
    simp only [List.length_append, List.length_singleton]
    rw [if_neg (by omega)]
  refine ⟨h1, ?_⟩
  rw [h1]
  unfold call
  rw [lookup_append_new c k v hl]

example : (calls (σ := Unit) (ε := Unit) (some 2) (fun _ k => .ok (k * k)) []
    [((), 3), ((), 4), ((), 5), ((), 3), ((), 5)]) =
    ([.ok 9, .ok 16, .ok 25, .ok 9, .ok 25], [(3, 9), (4, 16)]) := by decide +kernel

/-- A stored entry is never lost: eviction only ever removes the entry just added. -/
theorem C24_never_forgets (limit : Option Nat) (f : σ → κ → Except ε ν) (c : Cache κ ν)
    (k : κ) (v : ν) (hk : c.lookup k = some v) (h : List (σ × κ)) :
    (calls limit f c h).2.lookup k = some v := by
  induction h generalizing c with
  | nil => exact hk
  | cons a h ih =>
    obtain ⟨s, k'⟩ := a
    refine ih (call limit f c s k').2 ?_
    unfold call
    split
    · exact hk
    · split
      · exact hk
      · rename_i w _
        have := lookup_append c k v k' w hk
        simp only
        split
        · simp only
          split
          · simpa using hk
          · exact this
        · exact this

/-- C24: once a key has been stored, every later call with this key returns the stored
value, in whatever state it is made. -/
theorem C24_stale (limit : Option Nat) (f : σ → κ → Except ε ν) (c : Cache κ ν)
    (k : κ) (v : ν) (hk : c.lookup k = some v) (h : List (σ × κ)) (s : σ) :
    (call limit f (calls limit f c h).2 s k).1 = .ok v := by
  have := C24_never_forgets limit f c k v hk h
  unfold call
  rw [this]

/-- C24 (part): if the function has the same value in all states in which it is called with
the same key, every call is correct. -/
theorem C24_unchanged_partial (limit : Option Nat) (f : σ → κ → Except ε ν) (h : List (σ × κ))
    (hs : ∀ a ∈ h, ∀ b ∈ h, a.2 = b.2 → f a.1 a.2 = f b.1 b.2) :
    (calls limit f [] h).1 = h.map (fun p => f p.1 p.2) := by
  have aux : ∀ (h : List (σ × κ)) (c : Cache κ ν),
      (∀ a ∈ h, ∀ b ∈ h, a.2 = b.2 → f a.1 a.2 = f b.1 b.2) →
      (∀ p ∈ c, ∀ a ∈ h, a.2 = p.1 → f a.1 a.2 = .ok p.2) →
      (calls limit f c h).1 = h.map (fun p => f p.1 p.2) := by
    intro h
    induction h with
    | nil => intro c _ _; rfl
    | cons a h ih =>
      intro c hh hc
      obtain ⟨s, k⟩ := a
      simp only [calls, List.map_cons]
      congr 1
      · rcases call_result limit f c s k with ⟨v, hv, hr⟩ | hr
        · rw [hr]; exact (hc _ hv (s, k) (by simp) rfl).symm
        · exact hr
      · apply ih
        · exact fun a ha b hb => hh a (List.mem_cons_of_mem _ ha) b (List.mem_cons_of_mem _ hb)
        · intro p hp a ha hak
          rcases call_mem limit f c s k p hp with hp | ⟨h1, h2⟩
          · exact hc p hp a (List.mem_cons_of_mem _ ha) hak
          · rw [hh a (List.mem_cons_of_mem _ ha) (s, k) (by simp) (hak.trans h1)]
            exact h2
  exact aux h [] hs (by simp)

/-- The value of a device function as the scale `s` of its current changes. -/
def scaled (s : Nat) (k : Nat) : Except Unit Nat := .ok (s * k)

/-- C24 is false: evaluate, change the state, evaluate again: the old value comes back. -/
theorem C24_refuted :
    (calls (some 67108864) scaled [] [(1, 5), (2, 5)]).1 = [.ok 5, .ok 5] ∧
    (calls (some 67108864) scaled [] [(1, 5), (2, 5)]).1 ≠
      [(1, 5), (2, 5)].map (fun p => scaled p.1 p.2) := by decide +kernel

end Verif.Memo
