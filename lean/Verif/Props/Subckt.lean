import Verif.Model.Subckt
import Verif.Props.Parse
import Mathlib.Data.List.TakeWhile

/-!
Properties C38 (isolation of subcircuit instances) and C88 (references inside subcircuits).
-/

namespace Verif.Subckt
open Verif.Small Verif.Netlist Verif.Parse

/-- The nodes of an element. -/
def nodesOf : PElem → List Line
  | .R _ a b _ => [a, b]
  | .C _ a b _ _ => [a, b]
  | .L _ a b _ _ => [a, b]
  | .K .. => []
  | .V _ a b _ _ _ => [a, b]
  | .I _ a b _ _ _ => [a, b]
  | .E _ a b c d _ => [a, b, c, d]
  | .G _ a b c d _ => [a, b, c, d]
  | .F _ a b _ _ => [a, b]
  | .H _ a b _ _ => [a, b]
  | .S _ a b c d _ => [a, b, c, d]
  | .D _ a b _ _ _ _ => [a, b]
  | .M _ a b c d _ _ _ _ _ => [a, b, c, d]

/-- The element without its id and the names of its nodes. -/
def blank : PElem → PElem
  | .R _ _ _ v => .R [] [] [] v
  | .C _ _ _ v ic => .C [] [] [] v ic
  | .L _ _ _ v ic => .L [] [] [] v ic
  | .K _ l1 l2 k => .K [] l1 l2 k
  | .V _ _ _ dc ac f => .V [] [] [] dc ac f
  | .I _ _ _ dc ac f => .I [] [] [] dc ac f
  | .E _ _ _ _ _ v => .E [] [] [] [] [] v
  | .G _ _ _ _ _ v => .G [] [] [] [] [] v
  | .F _ _ _ s v => .F [] [] [] s v
  | .H _ _ _ s v => .H [] [] [] s v
  | .S _ _ _ _ _ m => .S [] [] [] [] [] m
  | .D _ _ _ m x ic o => .D [] [] [] m x ic o
  | .M _ _ _ _ _ m x l mm n => .M [] [] [] [] [] m x l mm n

/-- Node `n` of the subcircuit becomes node `m` of the caller, in an instance `label` of the
subcircuit `name` whose ports are connected as `cs` says. -/
def NodeTo (label name : Line) (cs : List (Line × Line)) (n m : Line) : Prop :=
  (n = ['0'] ∧ m = ['0']) ∨ (n ≠ ['0'] ∧ (n, m) ∈ cs) ∨
    (n ≠ ['0'] ∧ n ∉ cs.map Prod.fst ∧ m = label ++ '-' :: (name ++ '-' :: n))

theorem nodesOf_elem (w : Wrapper) (e : PElem) : nodesOf (w.elem e) = (nodesOf e).map w.node := by
  cases e <;> rfl

theorem blank_elem (w : Wrapper) (e : PElem) : blank (w.elem e) = blank e := by
  cases e <;> rfl

theorem ident_elem (w : Wrapper) (e : PElem) : ident (w.elem e) = w.id (ident e) := by
  cases e <;> rfl

theorem look_mem {d : List (Line × Line)} {k v : Line} (h : look d k = some v) : (k, v) ∈ d := by
  unfold look at h
  simp only [Option.map_eq_some_iff] at h
  obtain ⟨⟨a, b⟩, hf, hb⟩ := h
  have := List.find?_some hf
  simp only [decide_eq_true_eq] at this
  have hm := List.mem_of_find?_eq_some hf
  simp only at hb this
  subst hb this
  exact hm

theorem look_none {d : List (Line × Line)} {k : Line} (h : look d k = none) :
    k ∉ d.map Prod.fst := by
  unfold look at h
  simp only [Option.map_eq_none_iff, List.find?_eq_none, decide_eq_true_eq] at h
  intro hk
  obtain ⟨p, hp, hpk⟩ := List.mem_map.1 hk
  exact h p hp hpk

theorem look_put_self (d : List (Line × Line)) (k v : Line) : look (put d k v) k = some v := by
  simp [look, put]

theorem look_put_ne (d : List (Line × Line)) {k k' : Line} (v : Line) (h : k' ≠ k) :
    look (put d k v) k' = look d k' := by
  unfold look put
  rw [List.find?_cons]
  have : decide ((k, v).1 = k') = false := by simpa using fun hh : k = k' => h hh.symm
  rw [this]
  simp only
  congr 1
  induction d with
  | nil => rfl
  | cons p d ih =>
    by_cases hp : p.1 = k
    · have h2 : decide (p.1 = k') = false := by
        simp only [decide_eq_false_iff_not]; rw [hp]; exact fun hh => h hh.symm
      rw [List.filter_cons_of_neg (by simpa using hp), List.find?_cons, h2]
      exact ih
    · rw [List.filter_cons_of_pos (by simpa using hp), List.find?_cons, List.find?_cons, ih]

theorem node_spec (conns : List (Line × Line)) (name label n : Line) :
    NodeTo label name conns n ((wrapper conns name label).node n) := by
  unfold NodeTo Wrapper.node wrapper
  simp only
  by_cases h0 : n = ['0']
  · left; refine ⟨h0, ?_⟩; rw [h0, look_put_self]
  · right
    rw [look_put_ne _ _ h0]
    cases hl : look conns n with
    | some x => left; exact ⟨h0, look_mem hl⟩
    | none =>
      right
      refine ⟨h0, look_none hl, ?_⟩
      simp

/-- Values given on a call line: the texts after `=`, or nothing for a word without `=`. -/
def Given (t : List Line) (p v : Line) : Prop :=
  ∃ w ∈ t.drop 1, (p = w ∧ v = []) ∨ p ++ '=' :: v = Units.strip w

theorem callParams_given (ws : List Line) (d : List (Line × Line)) (p v : Line)
    (h : (p, v) ∈ callParams ws d) :
    (p, v) ∈ d ∨ ∃ w ∈ ws, (p = w ∧ v = []) ∨ p ++ '=' :: v = Units.strip w := by
  induction ws generalizing d with
  | nil => left; exact h
  | cons w ws ih =>
    unfold callParams at h
    split at h
    · left; exact h
    · split at h
      · rename_i p' v' hp
        rcases ih _ h with h1 | ⟨x, hx, hx2⟩
        · simp only [put, List.mem_cons, Prod.mk.injEq, List.mem_filter] at h1
          rcases h1 with ⟨rfl, rfl⟩ | h1
          · right
            refine ⟨w, by simp, ?_⟩
            by_cases hi : isParam w = true
            · obtain ⟨t, ht, hj, _⟩ := C72_rejoin w p (.text v) hi hp
              right
              have : v = t := by simpa using ht
              rw [this]; exact hj
            · left
              unfold paramValue at hp
              simp only [Bool.not_eq_true] at hi
              simp only [hi, Bool.not_false, if_true, Option.some.injEq, Prod.mk.injEq] at hp
              exact ⟨hp.1.symm, by simpa using hp.2.symm⟩
          · left; exact h1.1
        · right; exact ⟨x, List.mem_cons_of_mem _ hx, hx2⟩
      · rcases ih _ h with h1 | ⟨x, hx, hx2⟩
        · left; exact h1
        · right; exact ⟨x, List.mem_cons_of_mem _ hx, hx2⟩

theorem connections_some {ports : List Line} {params conns : List (Line × Line)}
    (h : connections ports params = some conns) :
    conns = params.filter (fun p => p.1 ≠ "name".toList) ∧ (∀ p ∈ conns, p.1 ∈ ports) ∧
      ∀ n ∈ ports, (look conns n).isSome := by
  unfold connections at h
  simp only at h
  split at h
  · rename_i hc
    simp only [Option.some.injEq] at h
    rw [← h]
    refine ⟨rfl, ?_, ?_⟩
    · intro p hp
      have := List.all_eq_true.1 hc.1 p hp
      simpa using this
    · intro n hn
      exact List.all_eq_true.1 hc.2 n hn
  · cases h

theorem put_nodup (d : List (Line × Line)) (k v : Line) (h : (d.map Prod.fst).Nodup) :
    ((put d k v).map Prod.fst).Nodup := by
  unfold put
  rw [List.map_cons, List.nodup_cons]
  refine ⟨?_, h.sublist (List.filter_sublist.map _)⟩
  intro hk
  obtain ⟨p, hp, hpk⟩ := List.mem_map.1 hk
  have := (List.mem_filter.1 hp).2
  simp only [ne_eq, decide_not, Bool.not_eq_eq_eq_not, Bool.not_true, decide_eq_false_iff_not] at this
  exact this hpk

theorem callParams_nodup (ws : List Line) (d : List (Line × Line)) (h : (d.map Prod.fst).Nodup) :
    ((callParams ws d).map Prod.fst).Nodup := by
  induction ws generalizing d with
  | nil => exact h
  | cons w ws ih =>
    unfold callParams
    split
    · exact h
    · split
      · exact ih _ (put_nodup _ _ _ h)
      · exact ih _ h

/-- C38: what an accepted call does. There is a subcircuit of the given name and a connection for
each of its ports, and only for these, all taken from the call; the elements are those of the code of
the subcircuit, in order, with other ids and nodes but otherwise the same; ids and nodes are changed
as described by `NodeTo`. -/
theorem C38_instance (subs : List Sub) (models : List Line) (fuel : Nat) (t : List Line)
    (els : List PElem) (h : parseX subs models fuel t = .ok els) :
    ∃ sub ∈ subs, ∃ cs : List (Line × Line), ∃ els0 : List PElem,
      Given t "name".toList sub.name ∧
      (cs.map Prod.fst).Nodup ∧ (∀ p ∈ sub.ports, p ∈ cs.map Prod.fst) ∧
      (∀ p v, (p, v) ∈ cs → p ∈ sub.ports ∧ Given t p v) ∧
      (∃ f, parseLines subs models f sub.code [] = .ok els0) ∧
      List.Forall₂ (fun e0 e => blank e = blank e0 ∧
        List.Forall₂ (NodeTo t[0]! sub.name cs) (nodesOf e0) (nodesOf e) ∧
        ident e = (ident e0).take 1 ++ '-' :: (t[0]! ++ '-' :: (sub.name ++ '-' :: (ident e0).drop 1)))
        els0 els := by
  cases fuel with
  | zero => simp [parseX] at h
  | succ fuel =>
    unfold parseX at h
    split at h
    · cases h
    · simp only at h
      cases hn : look (callParams (t.drop 1) []) "name".toList with
      | none => rw [hn] at h; cases h
      | some name =>
        rw [hn] at h
        simp only at h
        cases hs : subs.find? (fun s => s.name = name) with
        | none => rw [hs] at h; cases h
        | some sub =>
          rw [hs] at h
          simp only at h
          cases hc : connections sub.ports (callParams (t.drop 1) []) with
          | none => rw [hc] at h; cases h
          | some conns =>
            rw [hc] at h
            simp only at h
            cases hp : parseLines subs models fuel sub.code [] with
            | error e => rw [hp] at h; cases h
            | ok els0 =>
              rw [hp] at h
              simp only [Except.ok.injEq] at h
              have hname : sub.name = name := by simpa using List.find?_some hs
              have given : ∀ p v, (p, v) ∈ callParams (t.drop 1) [] → Given t p v := by
                intro p v hpv
                rcases callParams_given _ _ _ _ hpv with h1 | h1
                · cases h1
                · exact h1
              obtain ⟨hc1, hc2, hc3⟩ := connections_some hc
              refine ⟨sub, List.mem_of_find?_eq_some hs, conns, els0, ?_, ?_, ?_, ?_, ⟨fuel, hp⟩, ?_⟩
              · rw [hname]; exact given _ _ (look_mem hn)
              · rw [hc1]
                exact (callParams_nodup _ [] List.nodup_nil).sublist (List.filter_sublist.map _)
              · intro p hpp
                obtain ⟨v, hv⟩ := Option.isSome_iff_exists.1 (hc3 p hpp)
                exact List.mem_map.2 ⟨(p, v), look_mem hv, rfl⟩
              · intro p v hpv
                refine ⟨hc2 _ hpv, given p v ?_⟩
                rw [hc1] at hpv
                exact (List.mem_filter.1 hpv).1
              · rw [← h, List.forall₂_map_right_iff]
                apply List.forall₂_same.2
                intro e _
                refine ⟨blank_elem _ _, ?_, ?_⟩
                · rw [nodesOf_elem, List.forall₂_map_right_iff]
                  exact List.forall₂_same.2 fun n _ => node_spec _ _ _ _
                · rw [ident_elem]
                  simp [Wrapper.id, wrapper]

/-- `m` is ground or one of the nodes named on the call. -/
def Outer (t : List Line) (m : Line) : Prop := m = ['0'] ∨ ∃ p, Given t p m

/-- C38: every node of an instance is ground, a node named on the call, or begins with the label of
the instance and a dash. -/
theorem C38_nodes (subs : List Sub) (models : List Line) (fuel : Nat) (t : List Line)
    (els : List PElem) (h : parseX subs models fuel t = .ok els) (e : PElem) (he : e ∈ els)
    (m : Line) (hm : m ∈ nodesOf e) : Outer t m ∨ ∃ r, m = t[0]! ++ '-' :: r := by
  obtain ⟨sub, _, cs, els0, _, _, _, hg, _, hall⟩ := C38_instance subs models fuel t els h
  obtain ⟨i, hi, rfl⟩ := List.getElem_of_mem he
  obtain ⟨hlen, hget⟩ := List.forall₂_iff_get.1 hall
  have h1 := hget i (by omega) hi
  simp only [List.get_eq_getElem] at h1
  obtain ⟨_, h2, _⟩ := h1
  obtain ⟨j, hj, rfl⟩ := List.getElem_of_mem hm
  obtain ⟨hlen2, hget2⟩ := List.forall₂_iff_get.1 h2
  have h3 := hget2 j (by omega) hj
  simp only [List.get_eq_getElem] at h3
  rcases h3 with ⟨_, h3⟩ | ⟨_, h3⟩ | ⟨_, _, h3⟩
  · left; left; exact h3
  · left; right; exact ⟨_, (hg _ _ h3).2⟩
  · right; exact ⟨_, h3⟩

theorem dash_split {a b r s : Line} (ha : '-' ∉ a) (hb : '-' ∉ b)
    (h : a ++ '-' :: r = b ++ '-' :: s) : a = b := by
  induction a generalizing b with
  | nil =>
    cases b with
    | nil => rfl
    | cons y b => simp at h; exact absurd (by rw [h.1]; simp) hb
  | cons x a ih =>
    cases b with
    | nil => simp at h; exact absurd (by simp [h.1]) ha
    | cons y b =>
      simp only [List.cons_append, List.cons.injEq] at h
      rw [h.1, ih (fun hh => ha (List.mem_cons_of_mem _ hh)) (fun hh => hb (List.mem_cons_of_mem _ hh)) h.2]

/-- C38: two instances with different labels share no node but ground and the nodes named on their
calls. Missing: labels with a dash (for which it is false). -/
theorem C38_isolated_partial (subs : List Sub) (models : List Line) (f f' : Nat)
    (t t' : List Line) (els els' : List PElem) (h : parseX subs models f t = .ok els)
    (h' : parseX subs models f' t' = .ok els') (hne : t[0]! ≠ t'[0]!)
    (hd : '-' ∉ t[0]!) (hd' : '-' ∉ t'[0]!) (e e' : PElem) (he : e ∈ els) (he' : e' ∈ els')
    (m : Line) (hm : m ∈ nodesOf e) (hm' : m ∈ nodesOf e') : Outer t m ∨ Outer t' m := by
  rcases C38_nodes subs models f t els h e he m hm with h1 | ⟨r, h1⟩
  · left; exact h1
  · rcases C38_nodes subs models f' t' els' h' e' he' m hm' with h2 | ⟨s, h2⟩
    · right; exact h2
    · exact absurd (dash_split hd hd' (h1.symm.trans h2)) hne

/-- C38: an instance shares with the nodes of its caller only ground and the nodes named on its call.
Missing: nodes of the caller that begin with the label of the instance and a dash. -/
theorem C38_caller_partial (subs : List Sub) (models : List Line) (f : Nat) (t : List Line)
    (els : List PElem) (h : parseX subs models f t = .ok els) (e : PElem) (he : e ∈ els)
    (m : Line) (hm : m ∈ nodesOf e) (hc : ∀ r, m ≠ t[0]! ++ '-' :: r) : Outer t m := by
  rcases C38_nodes subs models f t els h e he m hm with h1 | ⟨r, h1⟩
  · exact h1
  · exact absurd h1 (hc r)

/-- C38: different local nodes of an instance stay different, ports and ground become what the call
says, and no local node becomes ground or a node named on the call, unless that one begins with the
label of the instance and a dash. -/
theorem C38_local (label name : Line) (cs : List (Line × Line)) (hcs : (cs.map Prod.fst).Nodup)
    (a b m m' : Line) (ha : NodeTo label name cs a m) (hB : NodeTo label name cs b m') :
    (a = b → m = m') ∧
    (a ≠ ['0'] → a ∉ cs.map Prod.fst → b ≠ ['0'] → b ∉ cs.map Prod.fst → m = m' → a = b) ∧
    (a ≠ ['0'] → a ∉ cs.map Prod.fst → (b = ['0'] ∨ b ∈ cs.map Prod.fst) →
      (∀ p v r, (p, v) ∈ cs → v ≠ label ++ '-' :: r) → m ≠ m') := by
  have fn : ∀ {p v w}, (p, v) ∈ cs → (p, w) ∈ cs → v = w := by
    intro p v w hv hw
    have := List.inj_on_of_nodup_map hcs hv hw rfl
    simpa using this
  refine ⟨?_, ?_, ?_⟩
  · rintro rfl
    rcases ha with ⟨h0, h1⟩ | ⟨h0, h1⟩ | ⟨h0, h2, h1⟩ <;>
      rcases hB with ⟨g0, g1⟩ | ⟨g0, g1⟩ | ⟨g0, g2, g1⟩
    · rw [h1, g1]
    · exact absurd h0 g0
    · exact absurd h0 g0
    · exact absurd g0 h0
    · exact fn h1 g1
    · exact absurd (List.mem_map.2 ⟨_, h1, rfl⟩) g2
    · exact absurd g0 h0
    · exact absurd (List.mem_map.2 ⟨_, g1, rfl⟩) h2
    · rw [h1, g1]
  · intro ha0 ha1 hb0 hb1 hmm
    rcases ha with ⟨h0, _⟩ | ⟨_, h1⟩ | ⟨_, _, h1⟩
    · exact absurd h0 ha0
    · exact absurd (List.mem_map.2 ⟨_, h1, rfl⟩) ha1
    · rcases hB with ⟨g0, _⟩ | ⟨_, g1⟩ | ⟨_, _, g1⟩
      · exact absurd g0 hb0
      · exact absurd (List.mem_map.2 ⟨_, g1, rfl⟩) hb1
      · rw [h1, g1] at hmm; simpa using hmm
  · intro ha0 ha1 hb hv hmm
    rcases ha with ⟨h0, _⟩ | ⟨_, h1⟩ | ⟨_, _, h1⟩
    · exact absurd h0 ha0
    · exact absurd (List.mem_map.2 ⟨_, h1, rfl⟩) ha1
    · rcases hB with ⟨_, g1⟩ | ⟨_, g1⟩ | ⟨g0, g2, _⟩
      · rw [h1, g1] at hmm
        have := congrArg List.length hmm
        simp at this
        omega
      · exact hv b m' _ g1 (hmm.symm.trans h1)
      · rcases hb with hb | hb
        · exact g0 hb
        · exact g2 hb

theorem parseElem_ident (models : List Line) (els : List PElem) (t : List Line) (e : PElem)
    (h : parseElem models els t = .ok e) : ident e ≠ [] := by
  have key : ident e = t[0]! := by
    unfold parseElem at h
    split at h
    all_goals first
      | (cases h; done)
      | (simp only [parseC, parseD, parseE, parseF, parseG, parseH, parseI, parseK, parseL, parseM,
          parseR, parseS, parseV, bind, Except.bind] at h
         repeat' split at h
         all_goals first
          | (cases h; done)
          | (cases h; rfl))
  rw [key]
  unfold parseElem at h
  split at h <;> first | (cases h; done) | simp

theorem parse_ident (subs : List Sub) (models : List Line) (f : Nat) :
    (∀ t els, parseX subs models f t = .ok els → ∀ e ∈ els, ident e ≠ []) ∧
    (∀ ls els els', (∀ e ∈ els, ident e ≠ []) → parseLines subs models f ls els = .ok els' →
      ∀ e ∈ els', ident e ≠ []) := by
  have hX : ∀ f t els, parseX subs models f t = .ok els → ∀ e ∈ els, ident e ≠ [] := by
    intro f t els h e he
    obtain ⟨sub, _, cs, els0, _, _, _, hg, _, hall⟩ := C38_instance subs models f t els h
    obtain ⟨i, hi, rfl⟩ := List.getElem_of_mem he
    obtain ⟨hlen, hget⟩ := List.forall₂_iff_get.1 hall
    have h1 := hget i (by omega) hi
    simp only [List.get_eq_getElem] at h1
    rw [h1.2.2]; simp
  refine ⟨hX f, ?_⟩
  induction f with
  | zero =>
    intro ls els els' hels h
    cases ls with
    | nil => simp only [parseLines, Except.ok.injEq] at h; rw [← h]; exact hels
    | cons t ls => simp [parseLines] at h
  | succ f ih =>
    intro ls els els' hels h
    cases ls with
    | nil => simp only [parseLines, Except.ok.injEq] at h; rw [← h]; exact hels
    | cons t ls =>
      unfold parseLines at h
      split at h
      · split at h
        · cases h
        · rename_i more hm
          refine ih _ _ _ ?_ h
          intro e he
          rcases List.mem_append.1 he with he | he
          · exact hels e he
          · exact hX _ _ _ hm e he
      · split at h
        · cases h
        · rename_i e0 hm
          refine ih _ _ _ ?_ h
          intro e he
          rcases List.mem_append.1 he with he | he
          · exact hels e he
          · rw [List.mem_singleton.1 he]; exact parseElem_ident _ _ _ _ hm

/-- C38: elements of two instances with different labels get different ids. Missing: labels with a
dash. -/
theorem C38_ids_partial (subs : List Sub) (models : List Line) (f f' : Nat)
    (t t' : List Line) (els els' : List PElem) (h : parseX subs models f t = .ok els)
    (h' : parseX subs models f' t' = .ok els') (hne : t[0]! ≠ t'[0]!)
    (hd : '-' ∉ t[0]!) (hd' : '-' ∉ t'[0]!) (e e' : PElem) (he : e ∈ els) (he' : e' ∈ els')
    : ident e ≠ ident e' := by
  have key : ∀ (f : Nat) (t : List Line) (els : List PElem), parseX subs models f t = .ok els →
      ∀ e ∈ els, ∃ x r, ident e = x :: '-' :: (t[0]! ++ '-' :: r) := by
    intro f t els h e he
    obtain ⟨sub, _, cs, els0, _, _, _, hg, ⟨f0, hp⟩, hall⟩ := C38_instance subs models f t els h
    obtain ⟨i, hi, rfl⟩ := List.getElem_of_mem he
    obtain ⟨hlen, hget⟩ := List.forall₂_iff_get.1 hall
    have h1 := hget i (by omega) hi
    simp only [List.get_eq_getElem] at h1
    have h2 := (parse_ident subs models f0).2 _ _ _ (by simp) hp els0[i] (List.getElem_mem _)
    rw [h1.2.2]
    cases hid : ident els0[i] with
    | nil => exact absurd hid h2
    | cons x r => exact ⟨x, _, rfl⟩
  obtain ⟨x, r, hx⟩ := key f t els h e he
  obtain ⟨x', r', hx'⟩ := key f' t' els' h' e' he'
  intro heq
  rw [hx, hx'] at heq
  simp only [List.cons.injEq, true_and] at heq
  exact hne (dash_split hd hd' heq.2)

/-- C38: the ports of a declared subcircuit are the words up to a comment, and none begins with `0`;
in particular ground cannot be a port. -/
theorem C38_declare (kw name : Line) (ws : List Line) (code : List (List Line)) :
    (∀ w ∈ ws, w.head? ≠ some '0' ∧ w.head? ≠ some '*') →
      declare ((kw :: name :: ws) :: code) = .ok ⟨name, ws, code⟩ ∧
      ∀ c rest, IsComment c →
        declare ((kw :: name :: (ws ++ c :: rest)) :: code) = .ok ⟨name, ws, code⟩ := by
  intro h
  have key : declPorts ws = some ws ∧ ∀ c rest, IsComment c →
      declPorts (ws ++ c :: rest) = some ws := by
    induction ws with
    | nil =>
      refine ⟨rfl, fun c rest hc => ?_⟩
      have : ¬ c.head? = some '0' := by rw [hc]; decide
      simp [declPorts, hc]
    | cons w ws ih =>
      obtain ⟨i1, i2⟩ := ih (fun x hx => h x (List.mem_cons_of_mem _ hx))
      have hw := h w (by simp)
      refine ⟨?_, fun c rest hc => ?_⟩
      · simp [declPorts, hw.1, hw.2, i1]
      · simp [declPorts, hw.1, hw.2, i2 c rest hc]
  refine ⟨?_, fun c rest hc => ?_⟩
  · simp [declare, key.1]
  · simp [declare, key.2 c rest hc]

theorem C38_declare_ground (kw name w : Line) (ws rest : List Line) (code : List (List Line))
    (hw : ∀ x ∈ ws, x.head? ≠ some '*') (h0 : w.head? = some '0') :
    declare ((kw :: name :: (ws ++ w :: rest)) :: code) = .error .parse := by
  have : declPorts (ws ++ w :: rest) = none := by
    induction ws with
    | nil => simp [declPorts, h0]
    | cons x ws ih =>
      have i := ih (fun y hy => hw y (List.mem_cons_of_mem _ hy))
      have hx := hw x (by simp)
      by_cases hz : x.head? = some '0'
      · simp [declPorts, hz]
      · simp [declPorts, hz, hx, i]
  simp [declare, this]

/-- C38: names with dashes make nodes of two instances, and of an instance and its caller, the
same node. -/
theorem C38_isolated_refuted :
    let a : Sub := ⟨"a".toList, ["in".toList], [line "r1 in b-c 1k"]⟩
    let b : Sub := ⟨"b".toList, ["in".toList], [line "r1 in c 1k"]⟩
    parseLines [a, b] [] 9 [line "x1 name=a in=1", line "x1-a name=b in=2",
        line "r9 x1-a-b-c 0 1k"] [] =
      .ok [.R "r-x1-a-1".toList "1".toList "x1-a-b-c".toList 1000,
        .R "r-x1-a-b-1".toList "2".toList "x1-a-b-c".toList 1000,
        .R "r9".toList "x1-a-b-c".toList "0".toList 1000] := by
  decide +kernel

/-- C38: a word that is the name of a port, without `=`, connects the port to the node with the
empty name, instead of being refused. -/
theorem C38_no_value_refuted :
    parseX [⟨"a".toList, ["in".toList], [line "r1 in 0 1k"]⟩] [] 9 (line "x1 name=a in") =
      .ok [.R "r-x1-a-1".toList [] "0".toList 1000] := by
  decide +kernel

/-- Two instances and a nested one. -/
example :
    let a : Sub := ⟨"a".toList, ["in".toList, "out".toList],
      [line "r1 in mid 1k", line "r2 mid out 2k", line "c1 mid 0 1"]⟩
    let b : Sub := ⟨"b".toList, ["p".toList], [line "x7 name=a in=p out=q", line "r3 q 0 5"]⟩
    parseLines [a, b] [] 20 [line "x1 name=a in=1 out=2", line "x2 out=3 in=2 name=a",
        line "xz name=b p=3"] [] =
      .ok [.R "r-x1-a-1".toList "1".toList "x1-a-mid".toList 1000,
        .R "r-x1-a-2".toList "x1-a-mid".toList "2".toList 2000,
        .C "c-x1-a-1".toList "x1-a-mid".toList "0".toList 1 none,
        .R "r-x2-a-1".toList "2".toList "x2-a-mid".toList 1000,
        .R "r-x2-a-2".toList "x2-a-mid".toList "3".toList 2000,
        .C "c-x2-a-1".toList "x2-a-mid".toList "0".toList 1 none,
        .R "r-xz-b--x7-a-1".toList "3".toList "xz-b-x7-a-mid".toList 1000,
        .R "r-xz-b--x7-a-2".toList "xz-b-x7-a-mid".toList "xz-b-q".toList 2000,
        .C "c-xz-b--x7-a-1".toList "xz-b-x7-a-mid".toList "0".toList 1 none,
        .R "r-xz-b-3".toList "xz-b-q".toList "0".toList 5] := by
  decide +kernel

/-! ### C88 -/

/-- The elements an element refers to by id. -/
def refs : PElem → List Line
  | .F _ _ _ s _ => [s]
  | .H _ _ _ s _ => [s]
  | .K _ l1 l2 _ => [l1, l2]
  | _ => []

/-- C88: elements that do not refer to other elements refer to none after the call; the references of
the others are the texts of the subcircuit. Missing (and false): that these are the new ids. -/
theorem C88_references_partial (subs : List Sub) (models : List Line) (fuel : Nat) (t : List Line)
    (els : List PElem) (h : parseX subs models fuel t = .ok els) :
    ∃ sub ∈ subs, ∃ els0 : List PElem, (∃ f, parseLines subs models f sub.code [] = .ok els0) ∧
      els.map refs = els0.map refs := by
  obtain ⟨sub, hs, cs, els0, _, _, _, _, hp, hall⟩ := C38_instance subs models fuel t els h
  refine ⟨sub, hs, els0, hp, ?_⟩
  have : ∀ e : PElem, refs e = refs (blank e) := fun e => by cases e <;> rfl
  clear hp h
  induction hall with
  | nil => rfl
  | cons h1 _ ih =>
    rw [List.map_cons, List.map_cons, ih, this, h1.1, ← this]

/-- C88: no reference of an element of an instance is the id of an element of this instance, unless
it has a dash itself. -/
theorem C88_references_refuted (subs : List Sub) (models : List Line) (fuel : Nat) (t : List Line)
    (els : List PElem) (h : parseX subs models fuel t = .ok els) (e e' : PElem) (_ : e ∈ els)
    (he' : e' ∈ els) (r : Line) (_ : r ∈ refs e) (hd : '-' ∉ r) : r ≠ ident e' := by
  obtain ⟨sub, _, cs, els0, _, _, _, hg, _, hall⟩ := C38_instance subs models fuel t els h
  obtain ⟨i, hi, rfl⟩ := List.getElem_of_mem he'
  obtain ⟨hlen, hget⟩ := List.forall₂_iff_get.1 hall
  have h1 := hget i (by omega) hi
  simp only [List.get_eq_getElem] at h1
  rintro rfl
  rw [h1.2.2] at hd
  simp at hd

/-- C88: the current that controls the source inside the subcircuit is that of the source of the
caller, not that of `v1` inside; a coupling inside names inductors that do not exist. -/
theorem C88_caller_refuted :
    parseLines [⟨"a".toList, ["p".toList],
        [line "v1 p n type=vdc vdc=0", line "f1 n 0 v1 2"]⟩] [] 9
      [line "v1 1 0 type=vdc vdc=5", line "x1 name=a p=1"] [] =
      .ok [.V "v1".toList "1".toList "0".toList (some 5) none none,
        .V "v-x1-a-1".toList "1".toList "x1-a-n".toList (some 0) none none,
        .F "f-x1-a-1".toList "x1-a-n".toList "0".toList "v1".toList 2] ∧
    parseX [⟨"a".toList, ["p".toList],
        [line "l1 p 0 1", line "l2 n 0 1", line "k1 l1 l2 1"]⟩] [] 9 (line "x1 name=a p=1") =
      .ok [.L "l-x1-a-1".toList "1".toList "0".toList 1 none,
        .L "l-x1-a-2".toList "x1-a-n".toList "0".toList 1 none,
        .K "k-x1-a-1".toList "l1".toList "l2".toList 1] := by
  decide +kernel

/-- C38: the words of a call are read one after the other up to the comment; a later value of a name replaces an earlier one. -/
theorem C38_call_words (ws : List (Line × Line × Line)) (d : List (Line × Line))
    (h : ∀ x ∈ ws, x.1.head? ≠ some '*' ∧ paramValue x.1 .str = some (x.2.1, .text x.2.2)) (c : Line) (rest : List Line) :
    callParams (ws.map Prod.fst) d = ws.foldl (fun d x => put d x.2.1 x.2.2) d ∧
    callParams (ws.map Prod.fst ++ ('*' :: c) :: rest) d = ws.foldl (fun d x => put d x.2.1 x.2.2) d := by
  induction ws generalizing d with
  | nil => exact ⟨rfl, by simp [callParams]⟩
  | cons x ws ih =>
    obtain ⟨h1, h2⟩ := h x (by simp)
    have := ih (put d x.2.1 x.2.2) fun y hy => h y (List.mem_cons_of_mem _ hy)
    rw [List.map_cons, List.cons_append, callParams, if_neg h1, h2, callParams, if_neg h1, h2]
    exact this

/-- C38: a subcircuit without ports needs its name only. -/
theorem C38_no_ports (subs : List Sub) (models : List Line) (fuel : Nat) (label w name : Line) (sub : Sub) (els : List PElem)
    (hw : w.head? ≠ some '*') (hp : paramValue w .str = some ("name".toList, .text name))
    (hf : subs.find? (fun s => s.name = name) = some sub) (h0 : sub.ports = [])
    (hc : parseLines subs models fuel sub.code [] = .ok els) :
    parseX subs models (fuel + 1) [label, w] = .ok (els.map (wrapper [] sub.name label).elem) := by
  have h1 : callParams ([label, w].drop 1) [] = put [] "name".toList name := by
    rw [List.drop_one, List.tail_cons, callParams, if_neg hw, hp]
    rfl
  have h2 : connections sub.ports (put [] "name".toList name) = some [] := by
    rw [h0]
    unfold connections
    generalize "name".toList = q
    simp [put]
  rw [parseX, if_neg (by simp)]
  simp only [h1, look_put_self, hf, h2, hc]
  rfl

example : parseX [⟨"osc".toList, [], [line "r1 a 0 1k"]⟩] [] 5 (line "x1 name=osc") =
    .ok [.R "r-x1-osc-1".toList "x1-osc-a".toList "0".toList 1000] := by decide +kernel

end Verif.Subckt
