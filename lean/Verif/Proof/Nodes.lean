import Verif.Model.Nodes
import Mathlib.Tactic.Common

namespace Verif.Nodes

theorem get_set (d : Dict) (k v k' : Key) :
    (d.set k v).get k' = if k' = k then some v else d.get k' := by
  induction d with
  | nil =>
    by_cases h : k = k'
    · subst h; simp [Dict.set, Dict.get]
    · have h' : ¬ k' = k := fun e => h e.symm
      simp [Dict.set, Dict.get, h, h']
  | cons e r ih =>
    obtain ⟨a, b⟩ := e
    by_cases h : a = k
    · subst h
      by_cases h' : a = k'
      · subst h'; simp [Dict.set, Dict.get]
      · have h'' : ¬ k' = a := fun e => h' e.symm
        simp [Dict.set, Dict.get, h', h'']
    · simp only [Dict.set, h, if_false, Dict.get, ih]
      by_cases h' : a = k'
      · subst h'; simp [h]
      · simp [h']

theorem length_set_new (d : Dict) (k v : Key) (h : d.get k = none) :
    (d.set k v).length = d.length + 1 := by
  induction d with
  | nil => simp [Dict.set]
  | cons e r ih =>
    obtain ⟨a, b⟩ := e
    by_cases h' : a = k
    · subst h'; simp [Dict.get] at h
    · simp only [Dict.get, h', if_false] at h
      simp only [Dict.set, h', if_false, List.length_cons]
      rw [ih h]

/-- Abstract node table (`t` lists the known names with their numbers) and the
relation tying the dictionary to it. -/
structure Inv (d : Dict) (t : List (String × Nat)) : Prop where
  len : d.length = 2 * t.length
  ext : ∀ s k, d.get (.ext s) = some k ↔ ∃ n, k = .int n ∧ (s, n) ∈ t
  int : ∀ n k, d.get (.int n) = some k ↔ ∃ s, k = .ext s ∧ (s, n) ∈ t
  zero : ∀ s n, (s, n) ∈ t → (n = 0 ↔ s = "0")
  names : (t.map Prod.fst).Nodup
  rng : ∀ n, n ∈ t.map Prod.snd ↔
    if "0" ∈ t.map Prod.fst then n < t.length else 1 ≤ n ∧ n ≤ t.length

theorem Inv.empty : Inv [] [] := by
  constructor
  · simp
  · simp [Dict.get]
  · simp [Dict.get]
  · simp
  · simp
  · intro n; simp; omega

theorem Inv.has_zero {d t} (h : Inv d t) : d.has (.int 0) = true ↔ "0" ∈ t.map Prod.fst := by
  unfold Dict.has
  rw [Option.isSome_iff_exists]
  constructor
  · rintro ⟨k, hk⟩
    obtain ⟨s, -, hs⟩ := (h.int 0 k).1 hk
    have := (h.zero s 0 hs).1 rfl
    subst this
    exact List.mem_map.2 ⟨_, hs, rfl⟩
  · intro hm
    obtain ⟨⟨s, n⟩, hs, e⟩ := List.mem_map.1 hm
    simp only at e; subst e
    have := (h.zero "0" n hs).2 rfl
    subst this
    exact ⟨_, (h.int 0 _).2 ⟨_, rfl, hs⟩⟩

theorem Inv.freshNum_eq {d t} (h : Inv d t) (name : String) :
    freshNum d name = if name = "0" then 0
      else if "0" ∈ t.map Prod.fst then t.length else t.length + 1 := by
  unfold freshNum
  by_cases h0 : name = "0"
  · simp [h0]
  · simp only [h0, if_false]
    have hl : d.length / 2 = t.length := by rw [h.len]; omega
    by_cases hz : "0" ∈ t.map Prod.fst
    · rw [if_pos (h.has_zero.2 hz), if_pos hz, hl]; omega
    · have : ¬ d.has (.int 0) = true := fun e => hz (h.has_zero.1 e)
      rw [if_neg this, if_neg hz, hl]

theorem Inv.insert {d t} (h : Inv d t) (name : String) (hn : d.get (.ext name) = none) :
    Inv (insertNode d name) ((name, freshNum d name) :: t) := by
  have hname : name ∉ t.map Prod.fst := by
    intro hm
    obtain ⟨⟨s, n⟩, hs, e⟩ := List.mem_map.1 hm
    simp only at e; subst e
    have := (h.ext s (.int n)).2 ⟨n, rfl, hs⟩
    rw [hn] at this; cases this
  have hnum : freshNum d name ∉ t.map Prod.snd := by
    rw [h.freshNum_eq, h.rng]
    by_cases h0 : name = "0"
    · subst h0
      simp only [if_true]
      rw [if_neg hname]; omega
    · simp only [h0, if_false]
      split <;> omega
  have hi : d.get (.int (freshNum d name)) = none := by
    rw [Option.eq_none_iff_forall_ne_some]
    intro k hk
    obtain ⟨s, -, hs⟩ := (h.int _ _).1 hk
    exact hnum (List.mem_map.2 ⟨_, hs, rfl⟩)
  have hzero : freshNum d name = 0 ↔ name = "0" := by
    rw [h.freshNum_eq]
    by_cases h0 : name = "0"
    · simp [h0]
    · simp only [h0, if_false, iff_false]
      split
      · rename_i hz
        have : t ≠ [] := by rintro rfl; simp at hz
        have := List.length_pos_of_ne_nil this
        omega
      · omega
  constructor
  · unfold insertNode
    simp only
    rw [length_set_new, length_set_new _ _ _ hi, h.len, List.length_cons]; · omega
    rw [get_set]; simp [hn]
  · intro s k
    unfold insertNode
    simp only [get_set, List.mem_cons, Prod.mk.injEq]
    by_cases hs : s = name
    · subst hs
      simp only [if_true, Option.some.injEq]
      constructor
      · rintro rfl; exact ⟨_, rfl, Or.inl ⟨by trivial, rfl⟩⟩
      · rintro ⟨n, rfl, ⟨-, rfl⟩ | hm⟩
        · rfl
        · exact absurd (List.mem_map.2 ⟨_, hm, rfl⟩) hname
    · have : ¬ (Key.ext s = Key.ext name) := by simpa using hs
      simp [this, hs, h.ext]
  · intro n k
    unfold insertNode
    simp only [get_set, List.mem_cons, Prod.mk.injEq]
    by_cases hs : n = freshNum d name
    · subst hs
      simp only [if_true, reduceCtorEq, if_false, Option.some.injEq]
      constructor
      · rintro rfl; exact ⟨_, rfl, Or.inl ⟨rfl, by trivial⟩⟩
      · rintro ⟨s, rfl, ⟨rfl, -⟩ | hm⟩
        · rfl
        · exact absurd (List.mem_map.2 ⟨_, hm, rfl⟩) hnum
    · have : ¬ (Key.int n = Key.int (freshNum d name)) := by simpa using hs
      simp [this, hs, h.int]
  · intro s n hm
    rcases List.mem_cons.1 hm with e | hm
    · cases e; exact hzero
    · exact h.zero s n hm
  · simp only [List.map_cons, List.nodup_cons]
    exact ⟨hname, h.names⟩
  · intro n
    simp only [List.map_cons, List.mem_cons, List.length_cons, h.rng]
    rw [h.freshNum_eq]
    by_cases h0 : name = "0"
    · subst h0
      simp only [if_true, hname, if_false, true_or]
      omega
    · have h0' : ¬ "0" = name := fun e => h0 e.symm
      simp only [h0, if_false, h0', false_or]
      split <;> omega

theorem get_none_of_has {d : Dict} {k} (h : ¬ d.has k = true) : d.get k = none := by
  unfold Dict.has at h
  cases hd : d.get k <;> simp_all

/-- One call keeps the invariant and only adds to the table. -/
theorem Inv.step {c : Circ} {t} (h : Inv c.dict t) (o : Op) :
    ∃ t', Inv (step c o).1.dict t' ∧ ∀ e ∈ t, e ∈ t' := by
  have hc : ∀ (c : Circ) s, Inv c.dict t →
      ∃ t', Inv (createNode c s).1.dict t' ∧ ∀ e ∈ t, e ∈ t' := by
    intro c s h
    unfold createNode
    by_cases hh : c.dict.has (.ext s) = true
    · simp only [hh, if_true]; exact ⟨t, h, fun _ => id⟩
    · simp only [hh]
      exact ⟨_, h.insert s (get_none_of_has hh), fun e he => List.mem_cons_of_mem _ he⟩
  cases o with
  | create s => exact hc c s h
  | newInternal => exact hc _ _ h
  | add s =>
    simp only [Nodes.step, addNode]
    cases hg : c.dict.get (.ext s) with
    | none => exact ⟨_, h.insert s hg, fun e he => List.mem_cons_of_mem _ he⟩
    | some k =>
      obtain ⟨n, rfl, -⟩ := (h.ext s k).1 hg
      exact ⟨t, h, fun _ => id⟩

theorem Inv.run {c : Circ} {t} (h : Inv c.dict t) (ops : List Op) :
    ∃ t', Inv (run c ops).dict t' ∧ ∀ e ∈ t, e ∈ t' := by
  induction ops generalizing c t with
  | nil => exact ⟨t, h, fun _ => id⟩
  | cons o r ih =>
    obtain ⟨t1, h1, s1⟩ := h.step o
    obtain ⟨t2, h2, s2⟩ := ih h1
    exact ⟨t2, h2, fun e he => s2 e (s1 e he)⟩

theorem Inv.extToInt_iff {c : Circ} {t} (h : Inv c.dict t) (s n) :
    extToInt c s = some n ↔ (s, n) ∈ t := by
  unfold extToInt
  constructor
  · intro e
    split at e
    · rename_i m hm
      cases e
      obtain ⟨n', hn, hm⟩ := (h.ext _ _).1 hm
      cases hn; exact hm
    · cases e
  · intro hm
    rw [(h.ext s (.int n)).2 ⟨n, rfl, hm⟩]

theorem Inv.intToExt_iff {c : Circ} {t} (h : Inv c.dict t) (s n) :
    intToExt c n = some s ↔ (s, n) ∈ t := by
  unfold intToExt
  constructor
  · intro e
    split at e
    · rename_i m hm
      cases e
      obtain ⟨n', hn, hm⟩ := (h.int _ _).1 hm
      cases hn; exact hm
    · cases e
  · intro hm
    rw [(h.int n (.ext s)).2 ⟨s, rfl, hm⟩]

/-- "0" is known after a history iff it was known before or was mentioned. -/
theorem known_zero_step {c : Circ} {t} (h : Inv c.dict t) (o : Op) :
    (extToInt (step c o).1 "0").isSome ↔
      (extToInt c "0").isSome ∨ o = .create "0" ∨ o = .add "0" := by
  have hins : ∀ (c : Circ) s, Inv c.dict t → c.dict.get (.ext s) = none →
      ((extToInt { c with dict := insertNode c.dict s } "0").isSome ↔
        (extToInt c "0").isSome ∨ s = "0") := by
    intro c s h hg
    have h' : Inv ({ c with dict := insertNode c.dict s } : Circ).dict _ := h.insert s hg
    simp only [Option.isSome_iff_exists, h'.extToInt_iff, h.extToInt_iff, List.mem_cons,
      Prod.mk.injEq]
    constructor
    · rintro ⟨n, ⟨rfl, -⟩ | hn⟩
      · right; rfl
      · left; exact ⟨n, hn⟩
    · rintro (⟨n, hn⟩ | rfl)
      · exact ⟨n, Or.inr hn⟩
      · exact ⟨_, Or.inl ⟨rfl, rfl⟩⟩
  have hk : ∀ (c : Circ) s, Inv c.dict t → c.dict.has (.ext s) = true → s = "0" →
      (extToInt c "0").isSome := by
    intro c s h hh e
    subst e
    unfold Dict.has at hh
    obtain ⟨k, hk⟩ := Option.isSome_iff_exists.1 hh
    obtain ⟨n, rfl, hn⟩ := (h.ext _ _).1 hk
    rw [Option.isSome_iff_exists]
    exact ⟨n, (h.extToInt_iff _ _).2 hn⟩
  have hcr : ∀ (c : Circ) s, Inv c.dict t →
      ((extToInt (createNode c s).1 "0").isSome ↔ (extToInt c "0").isSome ∨ s = "0") := by
    intro c s h
    unfold createNode
    by_cases hh : c.dict.has (.ext s) = true
    · simp only [hh, if_true]
      constructor
      · exact Or.inl
      · rintro (h1 | h1)
        · exact h1
        · exact hk c s h hh h1
    · simp only [hh]
      exact hins c s h (get_none_of_has hh)
  cases o with
  | create s => simpa [Nodes.step] using hcr c s h
  | newInternal =>
    have := hcr { c with internal := c.internal + 1 } ("INT" ++ toString c.internal) h
    simp only [Nodes.step, newInternalNode, reduceCtorEq, or_false]
    rw [this]
    have hne : ("INT" ++ toString c.internal) ≠ "0" := by
      intro e
      have := congrArg String.toList e
      simp at this
    have e2 : extToInt { dict := c.dict, internal := c.internal + 1 } "0" = extToInt c "0" := rfl
    rw [e2]
    exact ⟨fun h => h.resolve_right hne, Or.inl⟩
  | add s =>
    simp only [Nodes.step, addNode, reduceCtorEq, Op.add.injEq, false_or]
    cases hg : c.dict.get (.ext s) with
    | none => simpa using hins c s h hg
    | some k =>
      obtain ⟨n, rfl, -⟩ := (h.ext s k).1 hg
      simp only
      constructor
      · exact Or.inl
      · rintro (h1 | h1)
        · exact h1
        · exact hk c s h (by unfold Dict.has; rw [hg]; rfl) h1

end Verif.Nodes
