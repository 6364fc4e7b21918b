import Verif.Props.Build

/-!
Property C03: `remove_elem` and the node table.
-/

namespace Verif.Build
open Verif.Circuit Verif.Nodes

variable {α : Type}

/-! ### the dictionary under `purge` -/

/-- The dictionary holds exactly the pairs of `P`, in both directions. -/
structure Tab (d : Dict) (P : String → Nat → Prop) : Prop where
  ext : ∀ s k, d.get (.ext s) = some k ↔ ∃ n, k = .int n ∧ P s n
  int : ∀ n k, d.get (.int n) = some k ↔ ∃ s, k = .ext s ∧ P s n
  keys : KeysNodup d

theorem Tab.extToInt_iff {c : Circ} {P} (h : Tab c.dict P) (s n) :
    extToInt c s = some n ↔ P s n := by
  unfold extToInt
  constructor
  · intro e
    split at e
    · rename_i m hm
      cases e
      obtain ⟨n', hn, hm⟩ := (h.ext _ _).1 hm
      cases hn; exact hm
    · cases e
  · intro hm
    rw [(h.ext s (.int n)).2 ⟨n, rfl, hm⟩]

theorem Tab.intToExt_iff {c : Circ} {P} (h : Tab c.dict P) (s n) :
    intToExt c n = some s ↔ P s n := by
  unfold intToExt
  constructor
  · intro e
    split at e
    · rename_i m hm
      cases e
      obtain ⟨n', hn, hm⟩ := (h.int _ _).1 hm
      cases hn; exact hm
    · cases e
  · intro hm
    rw [(h.int n (.ext s)).2 ⟨s, rfl, hm⟩]

theorem Tab.purge {d : Dict} {P} (h : Tab d P) (n : Nat) (hn : ∃ s, P s n) :
    Tab (purge d n) (fun s m => P s m ∧ m ≠ n) ∧ (Build.purge d n).length + 2 = d.length := by
  obtain ⟨s0, h0⟩ := hn
  have hi : d.get (.int n) = some (.ext s0) := (h.int n _).2 ⟨s0, rfl, h0⟩
  have he : d.get (.ext s0) = some (.int n) := (h.ext s0 _).2 ⟨n, rfl, h0⟩
  have e : Build.purge d n = (d.pop (.ext s0)).pop (.int n) := by simp only [Build.purge, hi]
  rw [e]
  refine ⟨⟨?_, ?_, (h.keys.pop _).pop _⟩, ?_⟩
  · intro s k
    simp only [get_pop, reduceCtorEq, if_false, Key.ext.injEq]
    by_cases hs : s = s0
    · subst hs
      simp only [if_true, reduceCtorEq, false_iff]
      rintro ⟨m, rfl, hm, hne⟩
      have := (h.ext s (.int m)).2 ⟨m, rfl, hm⟩
      rw [he] at this; cases this; exact hne rfl
    · simp only [hs, if_false, h.ext]
      constructor
      · rintro ⟨m, rfl, hm⟩
        refine ⟨m, rfl, hm, ?_⟩
        rintro rfl
        have := (h.int m (.ext s)).2 ⟨s, rfl, hm⟩
        rw [hi] at this; cases this; exact hs rfl
      · rintro ⟨m, rfl, hm, -⟩; exact ⟨m, rfl, hm⟩
  · intro m k
    simp only [get_pop, reduceCtorEq, if_false, Key.int.injEq]
    by_cases hm : m = n
    · subst hm; simp
    · simp [hm, h.int]
  · have l1 := length_pop h.keys he
    have : (d.pop (.ext s0)).get (.int n) = some (.ext s0) := by
      rw [get_pop]; simpa using hi
    have l2 := length_pop (h.keys.pop _) this
    omega

theorem Tab.purgeAll {d : Dict} {P} (h : Tab d P) (l : List Nat) (hl : l.Nodup)
    (hn : ∀ n ∈ l, ∃ s, P s n) :
    Tab (l.foldl Build.purge d) (fun s m => P s m ∧ m ∉ l) ∧
      (l.foldl Build.purge d).length + 2 * l.length = d.length := by
  induction l generalizing d P with
  | nil => simpa using h
  | cons n r ih =>
    rw [List.nodup_cons] at hl
    obtain ⟨h1, e1⟩ := h.purge n (hn n (by simp))
    have hn' : ∀ m ∈ r, ∃ s, P s m ∧ m ≠ n := by
      intro m hm
      obtain ⟨s, hs⟩ := hn m (by simp [hm])
      exact ⟨s, hs, fun e => hl.1 (e ▸ hm)⟩
    obtain ⟨h2, e2⟩ := ih h1 hl.2 hn'
    rw [List.foldl_cons]
    constructor
    · constructor
      · intro s k
        rw [h2.ext]
        simp only [List.mem_cons, not_or, and_assoc, ne_eq]
      · intro m k
        rw [h2.int]
        simp only [List.mem_cons, not_or, and_assoc, ne_eq]
      · exact h2.keys
    · rw [List.length_cons]; omega

theorem BInv.tab {c : Ckt α} {t} (h : BInv c t) : Tab c.nodes.dict (fun s n => (s, n) ∈ t) :=
  ⟨h.inv.ext, h.inv.int, h.keys⟩

/-! ### the loops of `remove_elem` -/

theorem keepNode_true {elem : Elem α} {n : Nat} {rest : List (Elem α)} {k : Bool}
    (h : keepNode elem n rest = .ok k) {e : Elem α} (he : e ∈ rest)
    (hu : ∀ x, usesNode elem e n = .ok x → x = true) : k = true := by
  induction rest with
  | nil => cases he
  | cons a r ih =>
    simp only [keepNode] at h
    cases hua : usesNode elem a n with
    | error x => simp [hua] at h
    | ok b =>
      rw [hua] at h
      cases b with
      | true => simpa using h.symm
      | false =>
        simp only at h
        split at h
        · simpa using h.symm
        · rcases List.mem_cons.1 he with rfl | he
          · exact absurd (hu _ hua) (by simp)
          · exact ih h he

theorem dropList_spec {elem : Elem α} {rest : List (Elem α)} {cands l : List Nat}
    (h : dropList elem rest cands = .ok l) :
    List.Sublist l cands ∧ ∀ n, n ∈ l ↔ n ∈ cands ∧ keepNode elem n rest = .ok false := by
  induction cands generalizing l with
  | nil =>
    simp only [dropList, Except.ok.injEq] at h
    subst h
    simp
  | cons m t ih =>
    simp only [dropList] at h
    cases hk : keepNode elem m rest with
    | error x => simp [hk] at h
    | ok k =>
      rw [hk] at h
      cases hd : dropList elem rest t with
      | error x => simp [hd] at h
      | ok l' =>
        rw [hd] at h
        simp only [Except.ok.injEq] at h
        obtain ⟨hs, hm⟩ := ih hd
        subst h
        cases k with
        | true =>
          refine ⟨hs.trans (List.sublist_cons_self _ _), ?_⟩
          intro n
          simp only [if_true, hm, List.mem_cons]
          constructor
          · rintro ⟨a, b⟩; exact ⟨Or.inr a, b⟩
          · rintro ⟨rfl | a, b⟩
            · rw [hk] at b; cases b
            · exact ⟨a, b⟩
        | false =>
          refine ⟨hs.cons_cons _, ?_⟩
          intro n
          simp only [Bool.false_eq_true, if_false, hm, List.mem_cons]
          constructor
          · rintro (rfl | ⟨a, b⟩)
            · exact ⟨Or.inl rfl, hk⟩
            · exact ⟨Or.inr a, b⟩
          · rintro ⟨rfl | a, b⟩
            · exact Or.inl rfl
            · exact Or.inr ⟨a, b⟩

/-- one step of the candidate list -/
theorem cand_step {l : List Nat} (hl : l.Nodup ∧ ∀ m ∈ l, m ≠ 0) (n : Nat) :
    ((if n ≠ 0 ∧ n ∉ l then l ++ [n] else l).Nodup ∧
      ∀ m ∈ (if n ≠ 0 ∧ n ∉ l then l ++ [n] else l), m ≠ 0) ∧
    ∀ m, m ∈ (if n ≠ 0 ∧ n ∉ l then l ++ [n] else l) ↔ m ∈ l ∨ (m = n ∧ n ≠ 0) := by
  by_cases h : n ≠ 0 ∧ n ∉ l
  · rw [if_pos h]
    refine ⟨⟨?_, ?_⟩, ?_⟩
    · rw [List.nodup_append]
      refine ⟨hl.1, by simp, ?_⟩
      intro a ha b hb
      rw [List.mem_singleton] at hb; subst hb
      rintro rfl; exact h.2 ha
    · intro m hm
      rw [List.mem_append, List.mem_singleton] at hm
      rcases hm with hm | rfl
      · exact hl.2 m hm
      · exact h.1
    · intro m; rw [List.mem_append, List.mem_singleton]
      constructor
      · rintro (a | a)
        · exact Or.inl a
        · exact Or.inr ⟨a, h.1⟩
      · rintro (a | a)
        · exact Or.inl a
        · exact Or.inr a.1
  · rw [if_neg h]
    refine ⟨hl, ?_⟩
    intro m
    constructor
    · exact Or.inl
    · rintro (a | ⟨rfl, a⟩)
      · exact a
      · by_contra hm; exact h ⟨a, hm⟩

theorem cand_fold (ps : List (Nat × Nat)) {l : List Nat} (hl : l.Nodup ∧ ∀ m ∈ l, m ≠ 0) :
    let r := ps.foldl (fun l p =>
      let l1 := if p.1 ≠ 0 ∧ p.1 ∉ l then l ++ [p.1] else l
      if p.2 ≠ 0 ∧ p.2 ∉ l1 then l1 ++ [p.2] else l1) l
    (r.Nodup ∧ ∀ m ∈ r, m ≠ 0) ∧
    ∀ m, m ∈ r ↔ m ∈ l ∨ (m ≠ 0 ∧ m ∈ ps.flatMap (fun q => [q.1, q.2])) := by
  induction ps generalizing l with
  | nil => simpa using hl
  | cons p r ih =>
    simp only [List.foldl_cons]
    obtain ⟨a1, m1⟩ := cand_step hl p.1
    obtain ⟨a2, m2⟩ := cand_step a1 p.2
    obtain ⟨a3, m3⟩ := ih a2
    refine ⟨a3, ?_⟩
    intro m
    rw [m3 m, m2 m, m1 m]
    simp only [List.flatMap_cons, List.mem_append, List.mem_cons, List.not_mem_nil, or_false]
    constructor
    · rintro (((h | ⟨rfl, h⟩) | ⟨rfl, h⟩) | ⟨h, h'⟩)
      · exact Or.inl h
      · exact Or.inr ⟨h, Or.inl (Or.inl rfl)⟩
      · exact Or.inr ⟨h, Or.inl (Or.inr rfl)⟩
      · exact Or.inr ⟨h, Or.inr h'⟩
    · rintro (h | ⟨h, (rfl | rfl) | h'⟩)
      · exact Or.inl (Or.inl (Or.inl h))
      · exact Or.inl (Or.inl (Or.inr ⟨rfl, h⟩))
      · exact Or.inl (Or.inr ⟨rfl, h⟩)
      · exact Or.inr ⟨h, h'⟩

/-- terminals and ports, the nodes `remove_elem` considers for purging -/
def termNodes (e : Elem α) : List Nat :=
  e.n1?.toList ++ e.n2?.toList ++ (ports e).flatMap (fun q => [q.1, q.2])

theorem candidates_spec (e : Elem α) :
    (candidates e).Nodup ∧ ∀ n, n ∈ candidates e ↔ n ≠ 0 ∧ n ∈ termNodes e := by
  have h0 : ([] : List Nat).Nodup ∧ ∀ m ∈ ([] : List Nat), m ≠ 0 := ⟨List.nodup_nil, by simp⟩
  have key : ∀ (o1 o2 : Option Nat) (ps : List (Nat × Nat)),
      let add (l : List Nat) (n : Nat) : List Nat := if n ≠ 0 ∧ n ∉ l then l ++ [n] else l
      let l1 := match o1 with
        | some n => add [] n
        | none => []
      let l2 := match o2 with
        | some n => add l1 n
        | none => l1
      let r := ps.foldl (fun l p => add (add l p.1) p.2) l2
      r.Nodup ∧ ∀ n, n ∈ r ↔ n ≠ 0 ∧ n ∈ o1.toList ++ o2.toList ++ ps.flatMap (fun q => [q.1, q.2]) := by
    intro o1 o2 ps
    have s1 : ∀ (l : List Nat), (l.Nodup ∧ ∀ m ∈ l, m ≠ 0) → ∀ (o : Option Nat),
        let l' := (match o with
          | some n => if n ≠ 0 ∧ n ∉ l then l ++ [n] else l
          | none => l : List Nat)
        (l'.Nodup ∧ ∀ m ∈ l', m ≠ 0) ∧ ∀ m, m ∈ l' ↔ m ∈ l ∨ (m ≠ 0 ∧ m ∈ o.toList) := by
      intro l hl o
      cases o with
      | none => simpa using hl
      | some n =>
        obtain ⟨a, b⟩ := cand_step hl n
        refine ⟨a, ?_⟩
        intro m
        show m ∈ (if n ≠ 0 ∧ n ∉ l then l ++ [n] else l) ↔ _
        rw [b m]
        simp only [Option.toList_some, List.mem_singleton]
        constructor
        · rintro (h | ⟨rfl, h⟩)
          · exact Or.inl h
          · exact Or.inr ⟨h, rfl⟩
        · rintro (h | ⟨h, rfl⟩)
          · exact Or.inl h
          · exact Or.inr ⟨rfl, h⟩
    obtain ⟨a1, m1⟩ := s1 [] h0 o1
    obtain ⟨a2, m2⟩ := s1 _ a1 o2
    obtain ⟨a3, m3⟩ := cand_fold ps a2
    refine ⟨a3.1, ?_⟩
    intro n
    refine (m3 n).trans ?_
    rw [m2 n, m1 n]
    simp only [List.mem_append, List.not_mem_nil, false_or]
    tauto
  exact key e.n1? e.n2? (ports e)

theorem termNodes_sub (e : Elem α) : ∀ n ∈ termNodes e, n ∈ nodesOf e := by
  intro n hn
  cases e <;> simp [termNodes, nodesOf, Elem.n1?, Elem.n2?, ports] at hn ⊢
  case NL =>
    rcases hn with h | h | h
    · exact Or.inl h
    · exact Or.inr (Or.inl h)
    · exact Or.inr (Or.inr (Or.inr (Or.inl h)))
  all_goals tauto

/-! ### properties -/

variable [DecidableEq α] [Zero α]

/-- The purged nodes of a successful removal, for any circuit built through the API. -/
theorem removal (c : Ckt α) (hc : BuiltBy c) (i : Nat) (c' : Ckt α)
    (h : removeAt c i = (c', none)) :
    ∃ (elem : Elem α) (l : List Nat), c.elems[i]? = some elem ∧ c'.elems = c.elems.eraseIdx i ∧ l.Nodup ∧
      (∀ n, n ∈ l ↔ n ≠ 0 ∧ n ∈ termNodes elem ∧ keepNode elem n c'.elems = .ok false) ∧
      (∀ n ∈ l, (intToExt c.nodes n).isSome) ∧
      (∀ s n, extToInt c'.nodes s = some n ↔ extToInt c.nodes s = some n ∧ n ∉ l) ∧
      (∀ s n, intToExt c'.nodes n = some s ↔ intToExt c.nodes n = some s ∧ n ∉ l) ∧
      c'.nodes.dict.length + 2 * l.length = c.nodes.dict.length ∧
      (∀ n ∈ termNodes elem, n ≠ 0 → ∃ k, keepNode elem n c'.elems = .ok k) := by
  obtain ⟨t, hI⟩ := hc.inv
  unfold removeAt at h
  cases he : c.elems[i]? with
  | none => simp [he] at h
  | some elem =>
    rw [he] at h
    simp only at h
    cases hd : dropList elem (c.elems.eraseIdx i) (candidates elem) with
    | error x => simp [hd] at h
    | ok l =>
      rw [hd] at h
      simp only [Prod.mk.injEq, and_true] at h
      subst h
      obtain ⟨hs, hm⟩ := dropList_spec hd
      obtain ⟨hcn, hcm⟩ := candidates_spec elem
      have hnd : l.Nodup := hs.nodup hcn
      have hmem : elem ∈ c.elems := List.mem_of_getElem? he
      have hin : ∀ n ∈ l, ∃ s, (s, n) ∈ t := by
        intro n hn
        have h1 := ((hcm n).1 ((hm n).1 hn).1).2
        obtain ⟨⟨s, m⟩, hs, e⟩ := List.mem_map.1 (hI.elems elem hmem n (termNodes_sub elem n h1))
        simp only at e; subst e
        exact ⟨s, hs⟩
      obtain ⟨hT, hlen⟩ := hI.tab.purgeAll l hnd hin
      refine ⟨elem, l, rfl, rfl, hnd, ?_, ?_, ?_, ?_, hlen, ?_⟩
      · intro n; rw [hm n, hcm n]; tauto
      · intro n hn
        obtain ⟨s, hs⟩ := hin n hn
        rw [(hI.inv.intToExt_iff s n).2 hs]; rfl
      · intro s n
        rw [Tab.extToInt_iff (c := { c.nodes with dict := l.foldl purge c.nodes.dict }) hT,
          hI.inv.extToInt_iff]
      · intro s n
        rw [Tab.intToExt_iff (c := { c.nodes with dict := l.foldl purge c.nodes.dict }) hT,
          hI.inv.intToExt_iff]
      · have key : ∀ (cands l : List Nat), dropList elem (c.elems.eraseIdx i) cands = .ok l →
            ∀ n ∈ cands, ∃ k, keepNode elem n (c.elems.eraseIdx i) = .ok k := by
          intro cands
          induction cands with
          | nil => intro l _ n hn; cases hn
          | cons m r ih =>
            intro l hl n hn
            simp only [dropList] at hl
            cases hk : keepNode elem m (c.elems.eraseIdx i) with
            | error x => simp [hk] at hl
            | ok k =>
              rw [hk] at hl
              cases hr : dropList elem (c.elems.eraseIdx i) r with
              | error x => simp [hr] at hl
              | ok l' =>
                rcases List.mem_cons.1 hn with rfl | hn
                · exact ⟨k, hk⟩
                · exact ih l' hr n hn
        intro n hn hn0
        exact key _ _ hd n ((hcm n).2 ⟨hn0, hn⟩)

/-- C03 (terminals): after a removal that does not raise, the *terminals* `n1`, `n2` of
every remaining element are still in the node table, under the same names. Missing for
C03: sense nodes and device ports (see the refutations). -/
theorem C03_terminals_kept_partial (c : Ckt α) (hc : BuiltBy c) (i : Nat) (c' : Ckt α)
    (h : removeAt c i = (c', none)) (e : Elem α) (he : e ∈ c'.elems) (n : Nat)
    (hn : e.n1? = some n ∨ e.n2? = some n) :
    ∃ s, intToExt c'.nodes n = some s ∧ intToExt c.nodes n = some s ∧
      extToInt c'.nodes s = some n := by
  obtain ⟨elem, l, hel, hrest, -, hl, -, hx, hi, -, hk⟩ := removal c hc i c' h
  have heo : e ∈ c.elems := by
    rw [hrest] at he; exact List.mem_of_mem_eraseIdx he
  have hno : n ∈ nodesOf e := by
    apply termNodes_sub
    rcases hn with hn | hn <;> simp [termNodes, hn]
  obtain ⟨s, hs, hs'⟩ := C76_nodes_known c hc e heo n hno
  have hnl : n ∉ l := by
    intro hm
    obtain ⟨h0, ht, hkn⟩ := (hl n).1 hm
    have : false = true := by
      refine keepNode_true hkn he ?_
      intro x hux
      -- the removed element has terminals, since it has a candidate node
      have h1 : elem.n1?.isSome = true ∧ elem.n2?.isSome = true := by
        cases elem <;> simp_all [termNodes, Elem.n1?, Elem.n2?, ports]
      have e12 : e.n1?.isSome = true ∧ e.n2?.isSome = true := by
        cases e <;> simp_all [Elem.n1?, Elem.n2?]
      obtain ⟨a, ha⟩ := Option.isSome_iff_exists.1 e12.1
      obtain ⟨b, hb⟩ := Option.isSome_iff_exists.1 e12.2
      simp only [usesNode, attrEq, h1, ha, hb, if_true] at hux
      rw [ha, hb] at hn
      by_cases han : a = n
      · simp [han] at hux; exact hux
      · have hbn : b = n := by
          rcases hn with hn | hn
          · exact absurd (Option.some.inj hn) han
          · exact Option.some.inj hn
        have : (a == n) = false := by simpa using han
        simp [this, hbn] at hux; exact hux
    exact Bool.noConfusion this
  exact ⟨s, (hi s n).2 ⟨hs, hnl⟩, hs, (hx s n).2 ⟨hs', hnl⟩⟩

/-- elements with two terminals and nothing else -/
def twoTerm : Elem α → Bool
  | .R .. | .C .. | .L .. | .V .. | .I .. | .F .. | .H .. => true
  | _ => false

omit [DecidableEq α] [Zero α] in
theorem twoTerm_nodes {e : Elem α} (h : twoTerm e = true) :
    ∃ a b, e.n1? = some a ∧ e.n2? = some b ∧ nodesOf e = [a, b] ∧ e.sn1? = none ∧
      e.sn2? = none ∧ e.nonlinear = false ∧ ports e = [] := by
  cases e <;> simp [twoTerm, Elem.n1?, Elem.n2?, nodesOf, Elem.sn1?, Elem.sn2?, Elem.nonlinear,
    ports] at h ⊢

omit [DecidableEq α] [Zero α] in
theorem keepNode_two {elem : Elem α} (h : twoTerm elem = true) (n : Nat) (rest : List (Elem α))
    (hr : ∀ e ∈ rest, twoTerm e = true) :
    keepNode elem n rest = .ok (decide (∃ e ∈ rest, n ∈ nodesOf e)) := by
  obtain ⟨a, b, h1, h2, -, h3, h4, h5, -⟩ := twoTerm_nodes h
  induction rest with
  | nil => simp [keepNode]
  | cons e r ih =>
    obtain ⟨x, y, e1, e2, e3, -⟩ := twoTerm_nodes (hr e (by simp))
    have ih := ih (fun e he => hr e (by simp [he]))
    simp only [keepNode, usesNode, attrEq, h1, h2, h3, h4, h5, e1, e2, Option.isSome_some,
      Option.isSome_none, Bool.false_eq_true, if_true, if_false, Bool.false_and]
    by_cases hx : x = n
    · subst hx
      simp [e3]
    · by_cases hy : y = n
      · subst hy
        have : (x == y) = false := by simpa using hx
        simp [e3, this]
      · have q1 : (x == n) = false := by simpa using hx
        have q2 : (y == n) = false := by simpa using hy
        have q3 : ¬ n = x := fun e => hx e.symm
        have q4 : ¬ n = y := fun e => hy e.symm
        simp [e3, q1, q2, q3, q4, ih]

/-- C03 for circuits made of two-terminal elements (R, C, L, V, I, F, H): the removal
succeeds, takes out exactly the element, and forgets exactly the nodes that were connected
to it and to nothing else (never the reference); all other names keep their numbers.
Missing for C03: elements with sense nodes or device ports, and the re-use of numbers. -/
theorem C03_two_terminal_partial (c : Ckt α) (hc : BuiltBy c)
    (ht : ∀ e ∈ c.elems, twoTerm e = true) (i : Nat) (elem : Elem α)
    (hi : c.elems[i]? = some elem) :
    ∃ c', removeAt c i = (c', none) ∧ c'.elems = c.elems.eraseIdx i ∧
      (∀ s n, extToInt c'.nodes s = some n ↔ extToInt c.nodes s = some n ∧
        ¬ (n ≠ 0 ∧ n ∈ nodesOf elem ∧ ∀ e ∈ c'.elems, n ∉ nodesOf e)) ∧
      (∀ e ∈ c'.elems, ∀ n ∈ nodesOf e, ∃ s, extToInt c'.nodes s = some n ∧
        intToExt c'.nodes n = some s) := by
  have hel := List.mem_of_getElem? hi
  have hte := ht elem hel
  have htr : ∀ e ∈ c.elems.eraseIdx i, twoTerm e = true :=
    fun e he => ht e (List.mem_of_mem_eraseIdx he)
  have hk := fun n => keepNode_two hte n _ htr
  have hd : ∀ cands, ∃ l, dropList elem (c.elems.eraseIdx i) cands = .ok l := by
    intro cands
    induction cands with
    | nil => exact ⟨[], rfl⟩
    | cons m r ih =>
      obtain ⟨l, hl⟩ := ih
      simp only [dropList, hk, hl]
      exact ⟨_, rfl⟩
  obtain ⟨l, hl⟩ := hd (candidates elem)
  have hr : ∃ c', removeAt c i = (c', none) := by
    unfold removeAt
    simp only [hi, hl]
    exact ⟨_, rfl⟩
  obtain ⟨c', hc'⟩ := hr
  obtain ⟨elem', l, h1, h2, h3, h4, h5, h6, h7, -⟩ := removal c hc i c' hc'
  rw [hi] at h1; cases h1
  obtain ⟨a, b, q1, q2, q3, -, -, -, q4⟩ := twoTerm_nodes hte
  have htn : termNodes elem = nodesOf elem := by simp [termNodes, q1, q2, q3, q4]
  have hmem : ∀ n, n ∈ l ↔ (n ≠ 0 ∧ n ∈ nodesOf elem ∧ ∀ e ∈ c'.elems, n ∉ nodesOf e) := by
    intro n
    rw [h4 n, htn, h2, hk]
    simp
  refine ⟨c', hc', h2, ?_, ?_⟩
  · intro s n; rw [h6 s n, hmem n]
  · intro e he n hn
    have heo : e ∈ c.elems := by rw [h2] at he; exact List.mem_of_mem_eraseIdx he
    obtain ⟨s, hs, hs'⟩ := C76_nodes_known c hc e heo n hn
    have hnl : n ∉ l := by rw [hmem n]; rintro ⟨-, -, h⟩; exact h e he hn
    exact ⟨s, (h6 s n).2 ⟨hs', hnl⟩, (h7 s n).2 ⟨hs, hnl⟩⟩

/-- C03 (numbers given out later), exactly: after a successful removal that purged the
nodes `l`, the next new node receives the number `N - |l|` (`N` the number of nodes before),
and that number is already in use unless nothing was purged or it was itself purged. -/
theorem C03_next_number (c : Ckt α) (hc : BuiltBy c) (h0 : (extToInt c.nodes "0").isSome)
    (i : Nat) (c' : Ckt α) (h : removeAt c i = (c', none)) :
    ∃ l : List Nat, l.Nodup ∧
      (∀ n, n ∈ l ↔ (intToExt c.nodes n).isSome ∧ intToExt c'.nodes n = none) ∧
      ∀ s, s ≠ "0" → extToInt c'.nodes s = none →
        (addNode c'.nodes s).2 = .num (nodesNumber c.nodes - l.length) ∧
        ((intToExt c'.nodes (nodesNumber c.nodes - l.length)).isSome ↔
          l ≠ [] ∧ nodesNumber c.nodes - l.length ∉ l) := by
  obtain ⟨t, hI⟩ := hc.inv
  obtain ⟨elem, l, h1, h2, h3, h4, h5, h6, h7, h8, -⟩ := removal c hc i c' h
  obtain ⟨z, hz⟩ := Option.isSome_iff_exists.1 h0
  have hzm := (hI.inv.extToInt_iff _ _).1 hz
  have hz0 : z = 0 := (hI.inv.zero _ _ hzm).2 rfl
  subst hz0
  have hzt : "0" ∈ t.map Prod.fst := List.mem_map.2 ⟨_, hzm, rfl⟩
  have hN : nodesNumber c.nodes = t.length := by unfold nodesNumber; rw [hI.inv.len]; omega
  have hin : ∀ n, (intToExt c.nodes n).isSome ↔ n < t.length := by
    intro n
    have := hI.inv.rng n
    rw [if_pos hzt] at this
    rw [← this, List.mem_map, Option.isSome_iff_exists]
    constructor
    · rintro ⟨s, hs⟩; exact ⟨(s, n), (hI.inv.intToExt_iff _ _).1 hs, rfl⟩
    · rintro ⟨⟨s, m⟩, hs, rfl⟩; exact ⟨s, (hI.inv.intToExt_iff _ _).2 hs⟩
  have hin' : ∀ n, (intToExt c'.nodes n).isSome ↔ n < t.length ∧ n ∉ l := by
    intro n
    rw [Option.isSome_iff_exists, ← hin n, Option.isSome_iff_exists]
    constructor
    · rintro ⟨s, hs⟩; obtain ⟨a, b⟩ := (h7 s n).1 hs; exact ⟨⟨s, a⟩, b⟩
    · rintro ⟨⟨s, a⟩, b⟩; exact ⟨s, (h7 s n).2 ⟨a, b⟩⟩
  have hz' : (0 : Nat) ∉ l := fun hm => ((h4 0).1 hm).1 rfl
  have hi0 : intToExt c'.nodes 0 = some "0" :=
    (h7 "0" 0).2 ⟨(hI.inv.intToExt_iff _ _).2 hzm, hz'⟩
  refine ⟨l, h3, ?_, ?_⟩
  · intro n
    constructor
    · intro hn
      refine ⟨h5 n hn, ?_⟩
      rw [Option.eq_none_iff_forall_ne_some]
      intro s hs
      exact ((h7 s n).1 hs).2 hn
    · rintro ⟨a, b⟩
      by_contra hn
      have := (hin' n).2 ⟨(hin n).1 a, hn⟩
      rw [b] at this; cases this
  · intro s hs hs'
    have hsub : ∀ n ∈ l, n < t.length := fun n hn => (hin n).1 (h5 n hn)
    constructor
    · have hx : c'.nodes.dict.get (.ext s) = none := by
        rw [Option.eq_none_iff_forall_ne_some]
        intro k hk
        unfold extToInt at hs'
        rw [hk] at hs'
        cases k with
        | int m => cases hs'
        | ext q =>
          obtain ⟨tt, -⟩ := hI.tab.purgeAll l h3 (by
            intro n hn
            obtain ⟨q, hq⟩ := Option.isSome_iff_exists.1 (h5 n hn)
            exact ⟨q, (hI.inv.intToExt_iff _ _).1 hq⟩)
          -- the dictionary of c' is the purged one
          unfold removeAt at h
          rw [h1] at h
          simp only at h
          cases hd : dropList elem (c.elems.eraseIdx i) (candidates elem) with
          | error x => simp [hd] at h
          | ok l' =>
            rw [hd] at h
            simp only [Prod.mk.injEq, and_true] at h
            subst h
            obtain ⟨hs1, hm1⟩ := dropList_spec hd
            obtain ⟨hcn, hcm⟩ := candidates_spec elem
            obtain ⟨tt, -⟩ := hI.tab.purgeAll l' (hs1.nodup hcn) (by
              intro n hn
              have h1' := ((hcm n).1 ((hm1 n).1 hn).1).2
              obtain ⟨⟨s, m⟩, hs, e⟩ := List.mem_map.1
                (hI.elems elem (List.mem_of_getElem? h1) n (termNodes_sub elem n h1'))
              simp only at e; subst e
              exact ⟨s, hs⟩)
            obtain ⟨n, e, -⟩ := (tt.ext s _).1 hk
            cases e
      have hh : c'.nodes.dict.has (.int 0) = true := by
        unfold Dict.has
        unfold intToExt at hi0
        cases hg : c'.nodes.dict.get (.int 0) with
        | none => rw [hg] at hi0; cases hi0
        | some k => rfl
      have : (addNode c'.nodes s).2 = .num (freshNum c'.nodes.dict s) := by
        simp only [addNode, hx]
      rw [this]
      unfold freshNum
      rw [if_neg hs, if_pos hh]
      unfold nodesNumber
      congr 1
      omega
    · rw [hin', hN]
      constructor
      · rintro ⟨a, b⟩
        refine ⟨?_, b⟩
        rintro rfl
        simp at a
      · rintro ⟨a, b⟩
        refine ⟨?_, b⟩
        have : 0 < l.length := List.length_pos_of_ne_nil a
        have := hsub (l.head a) (List.head_mem a)
        omega

/-- C03 is false: (1) removing a resistor purges the node a controlled source senses;
(2) after another removal the next new node receives a number in use, so two names share a
number; (3) removing a controlled source from a circuit with a resistor raises
`AttributeError` after the element was already taken out; (4) so does removing anything
from a circuit with a coupling. -/
theorem C03_removal_refuted :
    (let c : Ckt ℚ := addAll {} [.R "R1" "a" "0" 1, .E "E1" "b" "0" "a" "0" 2, .R "R2" "b" "0" 1]
     ∃ e ∈ (removeAt c 0).1.elems, ∃ n ∈ nodesOf e, (removeAt c 0).2 = none ∧
      intToExt (removeAt c 0).1.nodes n = none) ∧
    (let c : Ckt ℚ := addAll {} [.R "R1" "a" "0" 1, .R "R2" "b" "0" 1, .R "R3" "c" "0" 1]
     let c' := (add (removeAt c 0).1 (.R "R4" "d" "0" 1)).1
     (removeAt c 0).2 = none ∧ extToInt c'.nodes "c" = some 3 ∧ extToInt c'.nodes "d" = some 3) ∧
    (let c : Ckt ℚ := addAll {} [.R "R1" "a" "0" 1, .E "E1" "b" "0" "a" "0" 2]
     (removeAt c 1).2 = some .attr ∧ (removeAt c 1).1.elems.length = 1 ∧
      extToInt (removeAt c 1).1.nodes "b" = some 2) ∧
    (let c : Ckt ℚ := addAll {} [.R "R1" "a" "0" 1, .L "L1" "b" "0" 1 none, .L "L2" "b" "0" 1 none]
     let c1 := c.append (.K ⟨"K1", "L1", "L2", 1/2, 1/2⟩)
     (removeAt c1 0).2 = some .attr ∧ (removeAt c1 0).1.elems.length = 3) := by
  refine ⟨?_, ?_, ?_, ?_⟩
  · refine ⟨.E "E1" 2 0 1 0 2, ?_, 1, ?_, ?_, ?_⟩
    · have : (removeAt (addAll {} [.R "R1" "a" "0" 1, .E "E1" "b" "0" "a" "0" 2, .R "R2" "b" "0" 1] :
          Ckt ℚ) 0).1.elems = [.E "E1" 2 0 1 0 2, .R "R2" 2 0 1] := by rfl
      simp only [this, List.mem_cons, true_or]
    · simp [nodesOf]
    · decide +kernel
    · decide +kernel
  · decide +kernel
  · decide +kernel
  · decide +kernel

/-- Example for the hypotheses: a ladder whose first resistor is removed. -/
def exLadder : Ckt ℚ := addAll {}
  [.R "R1" "a" "0" 1, .R "R2" "a" "b" 2, .V "V1" "b" "0" { dc := some 1 }]

example : BuiltBy exLadder := ⟨_, _, rfl⟩
example : (∀ e ∈ exLadder.elems, twoTerm e = true) ∧ exLadder.elems.length = 3 ∧
    (removeAt exLadder 2).2 = none ∧ extToInt (removeAt exLadder 1).1.nodes "b" = some 2 := by
  refine ⟨?_, ?_, ?_, ?_⟩
  · have : exLadder.elems = [.R "R1" 1 0 1, .R "R2" 1 2 2, .V "V1" 2 0 { dc := some 1 }] := rfl
    rw [this]; simp [twoTerm]
  all_goals decide +kernel

/-! ### devices -/

omit [DecidableEq α] [Zero α] in
theorem keepNode_device {id : String} {n1 n2 : Nat} {p o : List (Nat × Nat)} (n : Nat) (rest : List (Elem α))
    (hr : ∀ e ∈ rest, e.n1?.isSome ∧ e.n2?.isSome) :
    keepNode (.NL id n1 n2 none p o) n rest =
      .ok (decide ((∃ e ∈ rest, e.n1? = some n ∨ e.n2? = some n) ∨ (rest ≠ [] ∧ n ∈ o.flatMap fun q => [q.1, q.2]))) := by
  induction rest with
  | nil => simp [keepNode]
  | cons e r ih =>
    have ih := ih (fun e he => hr e (by simp [he]))
    obtain ⟨h1, h2⟩ := hr e (by simp)
    obtain ⟨x, e1⟩ := Option.isSome_iff_exists.1 h1
    obtain ⟨y, e2⟩ := Option.isSome_iff_exists.1 h2
    have ho : (o.any fun p => p.1 == n || p.2 == n) = decide (n ∈ o.flatMap fun q => [q.1, q.2]) := by
      rw [Bool.eq_iff_iff]
      simp only [List.any_eq_true, Bool.or_eq_true, beq_iff_eq, decide_eq_true_eq, List.mem_flatMap, List.mem_cons,
        List.not_mem_nil, or_false, eq_comm (a := n)]
    have d1 : (Elem.NL id n1 n2 none p o : Elem α).n1? = some n1 := rfl
    have d2 : (Elem.NL id n1 n2 none p o : Elem α).n2? = some n2 := rfl
    have d3 : (Elem.NL id n1 n2 none p o : Elem α).sn1? = none := rfl
    have d4 : (Elem.NL id n1 n2 none p o : Elem α).sn2? = none := rfl
    have d5 : (Elem.NL id n1 n2 none p o : Elem α).nonlinear = true := rfl
    simp only [keepNode, usesNode, attrEq, d1, d2, d3, d4, d5, e1, e2, oports,
      Option.isSome_some, if_true, Option.isSome_none, Bool.false_eq_true, if_false, Bool.true_and, ho, ih]
    by_cases hx : x = n
    · simp [e1, hx]
    · by_cases hy : y = n
      · have : (x == n) = false := by simpa using hx
        simp [e2, hy, this]
      · have q1 : (x == n) = false := by simpa using hx
        have q2 : (y == n) = false := by simpa using hy
        simp only [q1, q2, decide_eq_true_eq]
        by_cases hn : n ∈ o.flatMap fun q => [q.1, q.2]
        · simp [hn]
        · simp [hn, e1, e2, hx, hy]

/-- C03 for diodes and transistors taken out of a circuit without couplings in which something is left: the removal
succeeds, and forgotten are exactly the nodes of the device that are no output node of it and no terminal of another
element. So output nodes stay although nothing is connected to them, and nodes that only ports of other devices refer
to are forgotten. -/
theorem C03_device_partial (c : Ckt α) (hc : BuiltBy c) (i : Nat) {id : String} {n1 n2 : Nat}
    {p o : List (Nat × Nat)} (hi : c.elems[i]? = some (.NL id n1 n2 none p o))
    (hr : ∀ e ∈ c.elems.eraseIdx i, e.n1?.isSome ∧ e.n2?.isSome) (hne : c.elems.eraseIdx i ≠ []) :
    ∃ c', removeAt c i = (c', none) ∧ c'.elems = c.elems.eraseIdx i ∧
      (∀ s n, extToInt c'.nodes s = some n ↔ extToInt c.nodes s = some n ∧
        ¬ (n ≠ 0 ∧ n ∈ n1 :: n2 :: p.flatMap (fun q => [q.1, q.2]) ∧ n ∉ o.flatMap (fun q => [q.1, q.2]) ∧
          ∀ e ∈ c'.elems, e.n1? ≠ some n ∧ e.n2? ≠ some n)) := by
  have hk := fun n => keepNode_device (id := id) (n1 := n1) (n2 := n2) (p := p) (o := o) n _ hr
  have hd : ∀ cands, ∃ l, dropList (.NL id n1 n2 none p o) (c.elems.eraseIdx i) cands = .ok l := by
    intro cands
    induction cands with
    | nil => exact ⟨[], rfl⟩
    | cons m r ih =>
      obtain ⟨l, hl⟩ := ih
      simp only [dropList, hk, hl]
      exact ⟨_, rfl⟩
  obtain ⟨l, hl⟩ := hd (candidates (.NL id n1 n2 none p o))
  have hr' : ∃ c', removeAt c i = (c', none) := by
    unfold removeAt
    simp only [hi]
    rw [hl]
    exact ⟨_, rfl⟩
  obtain ⟨c', hc'⟩ := hr'
  obtain ⟨elem', l, h1, h2, h3, h4, h5, h6, h7, -⟩ := removal c hc i c' hc'
  rw [hi] at h1; cases h1
  refine ⟨c', hc', h2, fun s n => ?_⟩
  have ht : termNodes (.NL id n1 n2 none p o : Elem α) = n1 :: n2 :: p.flatMap (fun q => [q.1, q.2]) := rfl
  rw [h6 s n, h4 n, ht, h2, hk, Except.ok.injEq, decide_eq_false_iff_not]
  refine and_congr_right fun _ => not_congr (and_congr_right fun _ => and_congr_right fun _ => ?_)
  constructor
  · intro h
    exact ⟨fun h' => h (.inr ⟨hne, h'⟩), fun e he => ⟨fun h' => h (.inl ⟨e, he, .inl h'⟩), fun h' => h (.inl ⟨e, he, .inr h'⟩)⟩⟩
  · rintro ⟨a, b⟩ (⟨e, he, h | h⟩ | h)
    · exact (b e he).1 h
    · exact (b e he).2 h
    · exact a h.2

/-- two transistors with a common gate, and the supply -/
def exPair : Ckt ℚ := addAll { models := [("nch", .mosq)] }
  [.V "V1" "vdd" "0" { dc := some 1 }, .M "M1" "vdd" "g" "x" "0" "nch", .M "M2" "vdd" "g" "0" "0" "nch"]

/-- a diode without anything else at its anode -/
def exOpen : Ckt ℚ := addAll { models := [("dm", .diode)] }
  [.V "V1" "vdd" "0" { dc := some 1 }, .D "D1" "a" "0" "dm"]

/-- C03 is false for devices too: (1) removing a transistor forgets the gate of another; (2) removing a diode leaves its
anode in the node table although nothing is connected to it. -/
theorem C03_device_refuted :
    (removeAt exPair 1).2 = none ∧ Elem.NL "M2" 1 0 none [(1, 0), (2, 0), (0, 0)] [(1, 0)] ∈ (removeAt exPair 1).1.elems ∧
    intToExt exPair.nodes 2 = some "g" ∧ intToExt (removeAt exPair 1).1.nodes 2 = none ∧
    (removeAt exOpen 1).2 = none ∧ (removeAt exOpen 1).1.elems.length = 1 ∧
    (∀ e ∈ (removeAt exOpen 1).1.elems, extToInt exOpen.nodes "a" = some 2 ∧ 2 ∉ nodesOf e) ∧
    extToInt (removeAt exOpen 1).1.nodes "a" = some 2 := by
  refine ⟨by decide +kernel, ?_, by decide +kernel, by decide +kernel, by decide +kernel, by decide +kernel, ?_, by decide +kernel⟩
  · have : (removeAt exPair 1).1.elems =
      [.V "V1" 1 0 { dc := some 1 }, .NL "M2" 1 0 none [(1, 0), (2, 0), (0, 0)] [(1, 0)]] := rfl
    simp [this]
  · have : (removeAt exOpen 1).1.elems = [.V "V1" 1 0 { dc := some 1 }] := rfl
    rw [this]
    have h : extToInt exOpen.nodes "a" = some 2 := by decide +kernel
    simp [h, nodesOf]

example : BuiltBy exPair ∧ ∃ c', removeAt exPair 1 = (c', none) ∧ extToInt c'.nodes "x" = some 3 := by
  have hb : BuiltBy exPair := ⟨_, _, rfl⟩
  have hE : exPair.elems = [.V "V1" 1 0 { dc := some 1 }, .NL "M1" 1 3 none [(1, 3), (2, 3), (0, 3)] [(1, 3)],
    .NL "M2" 1 0 none [(1, 0), (2, 0), (0, 0)] [(1, 0)]] := rfl
  obtain ⟨c', h, -, h2⟩ := C03_device_partial exPair hb 1 (by rw [hE]; rfl)
    (by rw [hE]; simp [Elem.n1?, Elem.n2?]) (by rw [hE]; simp)
  refine ⟨hb, c', h, (h2 "x" 3).2 ⟨by decide +kernel, by simp⟩⟩
end Verif.Build
