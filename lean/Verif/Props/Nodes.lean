import Verif.Proof.Nodes

/-!
Properties C01, C02, C04: node names and numbers.

The specification talks only about `extToInt` / `intToExt` (the public look-ups)
on circuits obtained from an empty one by an arbitrary history of calls.
-/

namespace Verif.Nodes

/-- A circuit obtained from a new one by some history of node-creating calls. -/
def Reachable (c : Circ) : Prop := ∃ ops, c = run {} ops

theorem Reachable.inv {c} (h : Reachable c) : ∃ t, Inv c.dict t := by
  obtain ⟨ops, rfl⟩ := h
  obtain ⟨t, ht, -⟩ := Inv.run (c := {}) Inv.empty ops
  exact ⟨t, ht⟩

/-- C01: the two look-ups are mutually inverse on every reachable circuit. -/
theorem C01_lookups_inverse (ops : List Op) (s : String) (n : Nat) :
    extToInt (run {} ops) s = some n ↔ intToExt (run {} ops) n = some s := by
  obtain ⟨t, h⟩ := Reachable.inv ⟨ops, rfl⟩
  rw [h.extToInt_iff, h.intToExt_iff]

/-- C01: distinct names have distinct numbers. -/
theorem C01_injective (ops : List Op) (s s' : String) (n : Nat)
    (h : extToInt (run {} ops) s = some n) (h' : extToInt (run {} ops) s' = some n) : s = s' := by
  have a := (C01_lookups_inverse ops s n).1 h
  have b := (C01_lookups_inverse ops s' n).1 h'
  rw [a] at b; exact Option.some.inj b

/-- C01: whatever is called afterwards, a name keeps its number and a number its name. -/
theorem C01_stable (ops later : List Op) (s : String) (n : Nat)
    (h : extToInt (run {} ops) s = some n) :
    extToInt (run {} (ops ++ later)) s = some n ∧ intToExt (run {} (ops ++ later)) n = some s := by
  obtain ⟨t, ht⟩ := Reachable.inv ⟨ops, rfl⟩
  have hm := (ht.extToInt_iff s n).1 h
  have e : run {} (ops ++ later) = run (run {} ops) later := by simp [run, List.foldl_append]
  obtain ⟨t', ht', hs⟩ := ht.run later
  rw [e, ht'.extToInt_iff, ht'.intToExt_iff]
  exact ⟨hs _ hm, hs _ hm⟩

/-- C01: `add_node` never fails; it returns the number under which the name is known
afterwards, which is the old number if the name was known before; and no other
name is affected. -/
theorem C01_add_node (ops : List Op) (s : String) :
    ∃ n, (addNode (run {} ops) s).2 = .num n ∧
      extToInt (addNode (run {} ops) s).1 s = some n ∧
      (∀ m, extToInt (run {} ops) s = some m → m = n) ∧
      (∀ s', s' ≠ s → extToInt (addNode (run {} ops) s).1 s' = extToInt (run {} ops) s') := by
  obtain ⟨t, h⟩ := Reachable.inv ⟨ops, rfl⟩
  generalize run {} ops = c at *
  cases hg : c.dict.get (.ext s) with
  | some k =>
    obtain ⟨n, rfl, hn⟩ := (h.ext s k).1 hg
    have e := (h.extToInt_iff s n).2 hn
    have ea : addNode c s = (c, .num n) := by simp only [addNode, hg]
    rw [ea]
    refine ⟨n, rfl, e, ?_, ?_⟩
    · intro m hm; rw [e] at hm; exact (Option.some.inj hm).symm
    · intro s' _; rfl
  | none =>
    have h' := h.insert s hg
    have ea : addNode c s = ({ c with dict := insertNode c.dict s }, .num (freshNum c.dict s)) := by
      simp only [addNode, hg]
    rw [ea]
    refine ⟨_, rfl, ?_, ?_, ?_⟩
    · exact (Inv.extToInt_iff (c := { c with dict := insertNode c.dict s }) h' _ _).2
        (List.mem_cons_self ..)
    · intro m hm; simp only [extToInt, hg] at hm; cases hm
    · intro s' hs
      have hk : ¬ Key.ext s' = Key.ext s := by simpa using hs
      simp only [extToInt, insertNode, get_set, hk, if_false, reduceCtorEq]

/-- C01: `create_node` raises exactly when the name is known (then nothing changes);
otherwise it returns the name, which is known from then on. -/
theorem C01_create_node (ops : List Op) (s : String) :
    (((extToInt (run {} ops) s).isSome ∧ createNode (run {} ops) s = (run {} ops, .valueError)) ∨
     (extToInt (run {} ops) s = none ∧ (createNode (run {} ops) s).2 = .name s ∧
        (extToInt (createNode (run {} ops) s).1 s).isSome)) ∧
    (∀ s', s' ≠ s → extToInt (createNode (run {} ops) s).1 s' = extToInt (run {} ops) s') := by
  obtain ⟨t, h⟩ := Reachable.inv ⟨ops, rfl⟩
  generalize run {} ops = c at *
  by_cases hh : c.dict.has (.ext s) = true
  · have ec : createNode c s = (c, .valueError) := by simp [createNode, hh]
    refine ⟨Or.inl ⟨?_, ec⟩, ?_⟩
    · obtain ⟨k, hk⟩ := Option.isSome_iff_exists.1 hh
      obtain ⟨n, rfl, hn⟩ := (h.ext _ _).1 hk
      rw [(h.extToInt_iff s n).2 hn]; rfl
    · intro s' _; rw [ec]
  · have hg := get_none_of_has hh
    have ec : createNode c s = ({ c with dict := insertNode c.dict s }, .name s) := by
      simp [createNode, hh]
    refine ⟨Or.inr ⟨?_, ?_, ?_⟩, ?_⟩
    · simp only [extToInt, hg]
    · rw [ec]
    · rw [ec]
      have h' := h.insert s hg
      rw [(Inv.extToInt_iff (c := { c with dict := insertNode c.dict s }) h' _ _).2
        (List.mem_cons_self ..)]; rfl
    · intro s' hs
      have hk : ¬ Key.ext s' = Key.ext s := by simpa using hs
      rw [ec]
      simp only [extToInt, insertNode, get_set, hk, if_false, reduceCtorEq]

/-- a history in which '0' arrives in the middle and names are repeated -/
def demoOps : List Op := [.add "a", .create "b", .add "0", .add "a", .create "b", .newInternal, .add "c"]

example : extToInt (run {} demoOps) "a" = some 1 ∧ extToInt (run {} demoOps) "c" = some 4 ∧
    extToInt (run {} demoOps) "INT0" = some 3 ∧ intToExt (run {} demoOps) 0 = some "0" := by
  decide +kernel

/-- C02: the numbers in use are exactly `0..n-1` once the reference was mentioned and
exactly `1..n` before that, where `n` is the number of names known. -/
theorem C02_contiguous (ops : List Op) :
    ∃ names : List String, names.Nodup ∧
      (∀ s, s ∈ names ↔ (extToInt (run {} ops) s).isSome) ∧
      nodesNumber (run {} ops) = names.length ∧
      (∀ n, (∃ s, extToInt (run {} ops) s = some n) ↔
        if .create "0" ∈ ops ∨ .add "0" ∈ ops then n < names.length
        else 1 ≤ n ∧ n ≤ names.length) := by
  have hz : ∀ (ops : List Op) (c : Circ) t, Inv c.dict t →
      ((extToInt (run c ops) "0").isSome ↔
        (extToInt c "0").isSome ∨ .create "0" ∈ ops ∨ .add "0" ∈ ops) := by
    intro ops
    induction ops with
    | nil => intro c t _; simp [run]
    | cons o r ih =>
      intro c t h
      obtain ⟨t', h', -⟩ := h.step o
      have e : run c (o :: r) = run (step c o).1 r := rfl
      rw [e, ih _ _ h', known_zero_step h o]
      simp only [List.mem_cons]
      constructor
      · rintro ((h1 | h1 | h1) | h1 | h1)
        · exact Or.inl h1
        · exact Or.inr (Or.inl (Or.inl h1.symm))
        · exact Or.inr (Or.inr (Or.inl h1.symm))
        · exact Or.inr (Or.inl (Or.inr h1))
        · exact Or.inr (Or.inr (Or.inr h1))
      · rintro (h1 | (h1 | h1) | (h1 | h1))
        · exact Or.inl (Or.inl h1)
        · exact Or.inl (Or.inr (Or.inl h1.symm))
        · exact Or.inr (Or.inl h1)
        · exact Or.inl (Or.inr (Or.inr h1.symm))
        · exact Or.inr (Or.inr h1)
  have hz0 := hz ops {} [] Inv.empty
  obtain ⟨t, h⟩ := Reachable.inv ⟨ops, rfl⟩
  have hmem : ∀ s, s ∈ t.map Prod.fst ↔ (extToInt (run {} ops) s).isSome := by
    intro s
    rw [Option.isSome_iff_exists]
    simp only [h.extToInt_iff, List.mem_map, Prod.exists, exists_and_right, exists_eq_right]
  refine ⟨t.map Prod.fst, h.names, hmem, ?_, ?_⟩
  · simp only [nodesNumber, h.len, List.length_map]; omega
  · intro n
    have hn : (∃ s, extToInt (run {} ops) s = some n) ↔ n ∈ t.map Prod.snd := by
      simp only [h.extToInt_iff, List.mem_map, Prod.exists, exists_eq_right]
    have hx : ("0" ∈ t.map Prod.fst) ↔ (.create "0" ∈ ops ∨ .add "0" ∈ ops) := by
      rw [hmem, hz0]; simp [extToInt, Dict.get]
    rw [hn, h.rng, List.length_map]
    by_cases hc : (.create "0" ∈ ops ∨ .add "0" ∈ ops)
    · rw [if_pos hc, if_pos (hx.2 hc)]
    · rw [if_neg hc, if_neg (fun e => hc (hx.1 e))]

/-- C02: number 0 belongs to the name '0' and to no other. -/
theorem C02_reference_is_zero (ops : List Op) (s : String) (n : Nat)
    (h : extToInt (run {} ops) s = some n) : n = 0 ↔ s = "0" := by
  obtain ⟨t, ht⟩ := Reachable.inv ⟨ops, rfl⟩
  exact ht.zero s n ((ht.extToInt_iff s n).1 h)

example : nodesNumber (run {} demoOps) = 5 ∧ .add "0" ∈ demoOps := by decide +kernel
example : nodesNumber (run {} [.add "a", .add "b"]) = 2 ∧
    extToInt (run {} [.add "a", .add "b"]) "b" = some 2 := by decide +kernel

/-- C04: `new_internal_node` either raises and leaves all look-ups unchanged, or returns a
name that was unknown and is known from then on. -/
theorem C04_fresh (ops : List Op) :
    let c := run {} ops
    let r := newInternalNode c
    (r.2 = .valueError ∧ r.1.dict = c.dict) ∨
    (∃ s, r.2 = .name s ∧ extToInt c s = none ∧ (extToInt r.1 s).isSome) := by
  intro c r
  obtain ⟨t, h⟩ : ∃ t, Inv c.dict t := Reachable.inv ⟨ops, rfl⟩
  by_cases hh : c.dict.has (.ext ("INT" ++ toString c.internal)) = true
  · left
    have : r = ({ c with internal := c.internal + 1 }, .valueError) := by
      simp only [r, newInternalNode, createNode, hh, if_true]
    rw [this]; exact ⟨rfl, rfl⟩
  · right
    have hg := get_none_of_has hh
    refine ⟨"INT" ++ toString c.internal, ?_, ?_, ?_⟩
    · simp only [r, newInternalNode, createNode, hh]; simp
    · simp only [extToInt, hg]
    · have h' := h.insert _ hg
      have e : r.1 = { dict := insertNode c.dict ("INT" ++ toString c.internal),
                       internal := c.internal + 1 } := by
        simp only [r, newInternalNode, createNode, hh]; simp
      rw [e, (Inv.extToInt_iff (c := { dict := insertNode c.dict ("INT" ++ toString c.internal), internal := c.internal + 1 }) h' _ _).2
        (List.mem_cons_self ..)]; rfl

/-- C04: two successful calls never return the same name, whatever happens in between. -/
theorem C04_distinct (ops between : List Op) (s s' : String)
    (h1 : (newInternalNode (run {} ops)).2 = .name s)
    (h2 : (newInternalNode (run {} (ops ++ .newInternal :: between))).2 = .name s') : s ≠ s' := by
  rcases C04_fresh ops with ⟨a, -⟩ | ⟨x, ex, -, hx⟩
  · rw [h1] at a; cases a
  rw [h1] at ex; cases ex
  rcases C04_fresh (ops ++ .newInternal :: between) with ⟨a, -⟩ | ⟨y, ey, hy, -⟩
  · rw [h2] at a; cases a
  rw [h2] at ey; cases ey
  obtain ⟨n, hn⟩ := Option.isSome_iff_exists.1 hx
  have e : (newInternalNode (run {} ops)).1 = run {} (ops ++ [.newInternal]) := by
    simp [run, List.foldl_append, step]
  rw [e] at hn
  have := (C01_stable _ between _ _ hn).1
  rw [List.append_assoc] at this
  intro hs; subst hs
  rw [show ops ++ ([Op.newInternal] ++ between) = ops ++ .newInternal :: between from rfl] at this
  rw [this] at hy; cases hy

example : (newInternalNode (run {} demoOps)).2 = .name "INT1" := by decide +kernel
example : (newInternalNode (run {} [.add "INT0"])).2 = .valueError := by decide +kernel

/-- C04: the returned name is flagged as internal-only, hence hidden from the user. -/
theorem C04_flagged_internal (ops : List Op) (s : String)
    (h : (newInternalNode (run {} ops)).2 = .name s) :
    ∃ n, extToInt (newInternalNode (run {} ops)).1 s = some n ∧
      isInternalOnly (newInternalNode (run {} ops)).1 n = some true := by
  rcases C04_fresh ops with ⟨a, -⟩ | ⟨x, ex, -, hx⟩
  · rw [h] at a; cases a
  rw [h] at ex; cases ex
  obtain ⟨n, hn⟩ := Option.isSome_iff_exists.1 hx
  refine ⟨n, hn, ?_⟩
  have e : (newInternalNode (run {} ops)).1 = run {} (ops ++ [.newInternal]) := by
    simp [run, List.foldl_append, step]
  rw [e] at hn ⊢
  have hi := (C01_lookups_inverse _ s n).1 hn
  unfold isInternalOnly
  unfold intToExt at hi
  have hs : ∃ k : Nat, s = "INT" ++ toString k := by
    refine ⟨(run {} ops).internal, ?_⟩
    unfold newInternalNode createNode at h
    simp only at h
    split at h
    · cases h
    · simpa using h.symm
  obtain ⟨k, hk⟩ := hs
  split at hi
  · rename_i s' hs'
    cases hi
    rw [hk]
    simp [List.isPrefixOf, List.tails]
  · cases hi

/-- The converse does not hold: a user's node called "POINT" is flagged internal too. -/
example : isInternalOnly (run {} [.add "POINT"]) 1 = some true := by decide +kernel

end Verif.Nodes
