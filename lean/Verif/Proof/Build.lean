import Verif.Model.Build
import Verif.Proof.Nodes
import Mathlib.Data.List.Nodup
import Mathlib.Data.List.Perm.Subperm

namespace Verif.Build
open Verif.Circuit Verif.Nodes

variable {α : Type}

/-- A history of `add_*` calls on a circuit. -/
def addAll [DecidableEq α] [Zero α] (c : Ckt α) (ops : List (AddOp α)) : Ckt α :=
  ops.foldl (fun c o => (add c o).1) c

/-- Every node an element refers to: terminals, sense nodes, ports. -/
def nodesOf : Elem α → List Nat
  | .R _ a b _ | .C _ a b .. | .L _ a b .. | .V _ a b _ | .I _ a b _ | .F _ a b ..
  | .H _ a b .. => [a, b]
  | .E _ a b c d _ | .G _ a b c d _ => [a, b, c, d]
  | .K _ => []
  | .NL _ a b s p o => [a, b] ++ (match s with
      | some (x, y) => [x, y]
      | none => []) ++ (p ++ o).flatMap (fun q => [q.1, q.2])

/-! ### keys of the dictionary -/

def KeysNodup (d : Dict) : Prop := (d.map Prod.fst).Nodup

theorem keys_set (d : Dict) (k v : Key) :
    (d.set k v).map Prod.fst = if k ∈ d.map Prod.fst then d.map Prod.fst else d.map Prod.fst ++ [k] := by
  induction d with
  | nil => simp [Dict.set]
  | cons e r ih =>
    obtain ⟨a, b⟩ := e
    by_cases h : a = k
    · simp [Dict.set, h]
    · have h' : ¬ k = a := fun e => h e.symm
      simp only [Dict.set, h, if_false, List.map_cons, ih, List.mem_cons, h', false_or]
      split <;> simp

theorem KeysNodup.set {d : Dict} (h : KeysNodup d) (k v : Key) : KeysNodup (d.set k v) := by
  unfold KeysNodup at *
  rw [keys_set]
  split
  · exact h
  · rename_i hk
    rw [List.nodup_append]
    refine ⟨h, by simp, ?_⟩
    intro a ha b hb
    rw [List.mem_singleton] at hb
    subst hb
    rintro rfl; exact hk ha

theorem KeysNodup.pop {d : Dict} (h : KeysNodup d) (k : Key) : KeysNodup (d.pop k) := by
  unfold KeysNodup at *
  exact h.sublist (List.Sublist.map _ List.filter_sublist)

theorem get_pop (d : Dict) (k k' : Key) :
    (d.pop k).get k' = if k' = k then none else d.get k' := by
  induction d with
  | nil => simp [Dict.pop, Dict.get]
  | cons e r ih =>
    obtain ⟨a, b⟩ := e
    unfold Dict.pop at *
    by_cases h : a = k
    · subst h
      simp only [ne_eq, not_true_eq_false, decide_false, Bool.false_eq_true, not_false_eq_true,
        List.filter_cons_of_neg]
      rw [ih]
      by_cases h' : k' = a
      · simp [h']
      · have : ¬ a = k' := fun e => h' e.symm
        simp [Dict.get, h', this]
    · simp only [ne_eq, h, not_false_eq_true, decide_true, List.filter_cons_of_pos, Dict.get]
      rw [ih]
      by_cases h' : a = k'
      · subst h'; simp [h]
      · simp [h']

theorem mem_of_get {d : Dict} {k v : Key} (h : d.get k = some v) : k ∈ d.map Prod.fst := by
  induction d with
  | nil => simp [Dict.get] at h
  | cons e r ih =>
    obtain ⟨a, b⟩ := e
    by_cases h' : a = k
    · simp [h']
    · simp only [Dict.get, h', if_false] at h
      exact List.mem_cons_of_mem _ (ih h)

theorem length_pop {d : Dict} (hd : KeysNodup d) {k v : Key} (h : d.get k = some v) :
    (d.pop k).length + 1 = d.length := by
  induction d with
  | nil => simp [Dict.get] at h
  | cons e r ih =>
    obtain ⟨a, b⟩ := e
    unfold KeysNodup at hd
    simp only [List.map_cons, List.nodup_cons] at hd
    by_cases h' : a = k
    · subst h'
      have : Dict.pop ((a, b) :: r) a = r := by
        unfold Dict.pop
        simp only [ne_eq, not_true_eq_false, decide_false, Bool.false_eq_true, not_false_eq_true,
          List.filter_cons_of_neg]
        rw [List.filter_eq_self]
        intro x hx
        simp only [decide_eq_true_eq]
        intro e
        exact hd.1 (e ▸ List.mem_map.2 ⟨x, hx, rfl⟩)
      rw [this]; simp
    · simp only [Dict.get, h', if_false] at h
      have := ih hd.2 h
      have e : Dict.pop ((a, b) :: r) k = (a, b) :: Dict.pop r k := by
        unfold Dict.pop
        simp only [ne_eq, h', not_false_eq_true, decide_true, List.filter_cons_of_pos]
      rw [e, List.length_cons, List.length_cons]
      omega

/-! ### the invariant of circuits built through the API -/

structure BInv (c : Ckt α) (t : List (String × Nat)) : Prop where
  inv : Inv c.nodes.dict t
  keys : KeysNodup c.nodes.dict
  elems : ∀ e ∈ c.elems, ∀ n ∈ nodesOf e, n ∈ t.map Prod.snd

/-- What `add_node` does to a good circuit. -/
theorem BInv.addNode {c : Ckt α} {t} (h : BInv c t) (s : String) :
    ∃ t', BInv (c.addNode s).1 t' ∧ (∀ e ∈ t, e ∈ t') ∧ (s, (c.addNode s).2) ∈ t' ∧
      (c.addNode s).1.elems = c.elems ∧ (c.addNode s).1.models = c.models ∧
      ((s ∈ t.map Prod.fst) → (c.addNode s).1 = c ∧ t' = t) := by
  cases hg : c.nodes.dict.get (.ext s) with
  | some k =>
    obtain ⟨n, rfl, hn⟩ := (h.inv.ext s k).1 hg
    have e : c.addNode s = (c, n) := by simp only [Ckt.addNode, Nodes.addNode, hg]
    rw [e]
    exact ⟨t, h, fun _ => id, hn, rfl, rfl, fun _ => ⟨rfl, rfl⟩⟩
  | none =>
    have e : c.addNode s = ({ c with nodes := { c.nodes with dict := insertNode c.nodes.dict s } },
        freshNum c.nodes.dict s) := by simp only [Ckt.addNode, Nodes.addNode, hg]
    rw [e]
    refine ⟨(s, freshNum c.nodes.dict s) :: t, ⟨h.inv.insert s hg, ?_, ?_⟩, ?_, ?_, rfl, rfl, ?_⟩
    · exact (h.keys.set _ _).set _ _
    · intro e he n hn
      exact List.mem_cons_of_mem _ (h.elems e he n hn)
    · exact fun e he => List.mem_cons_of_mem _ he
    · exact List.mem_cons_self ..
    · intro hm
      obtain ⟨⟨s', n⟩, hs, es⟩ := List.mem_map.1 hm
      simp only at es; subst es
      have := (h.inv.ext s' (.int n)).2 ⟨n, rfl, hs⟩
      rw [hg] at this; cases this

theorem BInv.addNodes2 {c : Ckt α} {t} (h : BInv c t) (a b : String) :
    ∃ t', BInv (c.addNodes2 a b).1 t' ∧ (∀ e ∈ t, e ∈ t') ∧ (a, (c.addNodes2 a b).2.1) ∈ t' ∧
      (b, (c.addNodes2 a b).2.2) ∈ t' ∧
      (c.addNodes2 a b).1.elems = c.elems ∧ (c.addNodes2 a b).1.models = c.models ∧
      ((a ∈ t.map Prod.fst) → (b ∈ t.map Prod.fst) → (c.addNodes2 a b).1 = c ∧ t' = t) := by
  obtain ⟨t1, h1, s1, m1, e1, o1, k1⟩ := h.addNode a
  obtain ⟨t2, h2, s2, m2, e2, o2, k2⟩ := h1.addNode b
  refine ⟨t2, h2, fun e he => s2 e (s1 e he), s2 _ m1, m2, e2.trans e1, o2.trans o1, ?_⟩
  intro ha hb
  obtain ⟨k1a, k1b⟩ := k1 ha
  subst k1b
  obtain ⟨k2a, k2b⟩ := k2 hb
  exact ⟨k2a.trans k1a, k2b⟩

theorem BInv.addNodes4 {c : Ckt α} {t} (h : BInv c t) (a b x y : String) :
    ∃ t', BInv (c.addNodes4 a b x y).1 t' ∧ (∀ e ∈ t, e ∈ t') ∧
      (a, (c.addNodes4 a b x y).2.1) ∈ t' ∧ (b, (c.addNodes4 a b x y).2.2.1) ∈ t' ∧
      (x, (c.addNodes4 a b x y).2.2.2.1) ∈ t' ∧ (y, (c.addNodes4 a b x y).2.2.2.2) ∈ t' ∧
      (c.addNodes4 a b x y).1.elems = c.elems ∧ (c.addNodes4 a b x y).1.models = c.models ∧
      ((a ∈ t.map Prod.fst) → (b ∈ t.map Prod.fst) → (x ∈ t.map Prod.fst) →
        (y ∈ t.map Prod.fst) → (c.addNodes4 a b x y).1 = c ∧ t' = t) := by
  obtain ⟨t1, h1, s1, ma, mb, e1, o1, k1⟩ := h.addNodes2 a b
  obtain ⟨t2, h2, s2, mx, my, e2, o2, k2⟩ := h1.addNodes2 x y
  refine ⟨t2, h2, fun e he => s2 e (s1 e he), s2 _ ma, s2 _ mb, mx, my, e2.trans e1,
    o2.trans o1, ?_⟩
  intro ha hb hx hy
  obtain ⟨k1a, k1b⟩ := k1 ha hb
  subst k1b
  obtain ⟨k2a, k2b⟩ := k2 hx hy
  exact ⟨k2a.trans k1a, k2b⟩

theorem BInv.append {c : Ckt α} {t} (h : BInv c t) (e : Elem α)
    (he : ∀ n ∈ nodesOf e, n ∈ t.map Prod.snd) : BInv (c.append e) t := by
  refine ⟨h.inv, h.keys, ?_⟩
  intro e' he' n hn
  simp only [Ckt.append, List.mem_append, List.mem_singleton] at he'
  rcases he' with he' | rfl
  · exact h.elems e' he' n hn
  · exact he n hn

/-- the node names of a call -/
def AddOp.names : AddOp α → List String
  | .R _ a b _ | .C _ a b .. | .L _ a b .. | .V _ a b _ | .I _ a b _ | .F _ a b ..
  | .H _ a b .. | .D _ a b _ => [a, b]
  | .E _ a b x y _ | .G _ a b x y _ | .S _ a b x y _ | .M _ a b x y _ => [a, b, x, y]

/-- The whole story of one `add_*` call: the table only grows; a failing call leaves the
elements and the models alone, and changes nothing if its nodes were known already; a
successful call appends exactly one element, with the names' numbers. -/
theorem BInv.add [DecidableEq α] [Zero α] {c : Ckt α} {t} (h : BInv c t) (o : AddOp α) :
    ∃ t', BInv (add c o).1 t' ∧ (∀ e ∈ t, e ∈ t') ∧ (add c o).1.models = c.models ∧
      (((add c o).2 ≠ none) → (add c o).1.elems = c.elems ∧
        ((∀ s ∈ o.names, s ∈ t.map Prod.fst) → (add c o).1 = c)) ∧
      (((add c o).2 = none) → ∃ e, (add c o).1.elems = c.elems ++ [e] ∧
        (∀ n ∈ nodesOf e, ∃ s ∈ o.names, (s, n) ∈ t') ∧
        (∀ s ∈ o.names, ∃ n ∈ nodesOf e, (s, n) ∈ t')) := by
  have two : ∀ (a b : String), o.names = [a, b] → ∀ (e : Elem α),
      nodesOf e = [(c.addNodes2 a b).2.1, (c.addNodes2 a b).2.2] →
      ∃ t', BInv ((c.addNodes2 a b).1.append e) t' ∧ (∀ e ∈ t, e ∈ t') ∧
        ((c.addNodes2 a b).1.append e).models = c.models ∧
        (∃ e', ((c.addNodes2 a b).1.append e).elems = c.elems ++ [e'] ∧
        (∀ n ∈ nodesOf e', ∃ s ∈ o.names, (s, n) ∈ t') ∧
        (∀ s ∈ o.names, ∃ n ∈ nodesOf e', (s, n) ∈ t')) := by
    intro a b hn e he
    obtain ⟨t1, h1, s1, m1, m2, e1, o1, k1⟩ := h.addNodes2 a b
    refine ⟨t1, h1.append e ?_, s1, o1, e, ?_, ?_, ?_⟩
    · rw [he]; intro n hn
      simp only [List.mem_cons, List.not_mem_nil, or_false] at hn
      rcases hn with rfl | rfl
      · exact List.mem_map.2 ⟨_, m1, rfl⟩
      · exact List.mem_map.2 ⟨_, m2, rfl⟩
    · simp only [Ckt.append, e1]
    · rw [he, hn]; simp only [List.mem_cons, List.not_mem_nil, or_false]
      rintro n (rfl | rfl)
      · exact ⟨a, Or.inl rfl, m1⟩
      · exact ⟨b, Or.inr rfl, m2⟩
    · rw [he, hn]; simp only [List.mem_cons, List.not_mem_nil, or_false]
      rintro n (rfl | rfl)
      · exact ⟨_, Or.inl rfl, m1⟩
      · exact ⟨_, Or.inr rfl, m2⟩
  have four : ∀ (a b x y : String), o.names = [a, b, x, y] → ∀ (e : Elem α),
      (∀ n, n ∈ nodesOf e ↔ n = (c.addNodes4 a b x y).2.1 ∨ n = (c.addNodes4 a b x y).2.2.1 ∨
        n = (c.addNodes4 a b x y).2.2.2.1 ∨ n = (c.addNodes4 a b x y).2.2.2.2) →
      ∃ t', BInv ((c.addNodes4 a b x y).1.append e) t' ∧ (∀ e ∈ t, e ∈ t') ∧
        ((c.addNodes4 a b x y).1.append e).models = c.models ∧
        (∃ e', ((c.addNodes4 a b x y).1.append e).elems = c.elems ++ [e'] ∧
        (∀ n ∈ nodesOf e', ∃ s ∈ o.names, (s, n) ∈ t') ∧
        (∀ s ∈ o.names, ∃ n ∈ nodesOf e', (s, n) ∈ t')) := by
    intro a b x y hn e he
    obtain ⟨t1, h1, s1, m1, m2, m3, m4, e1, o1, k1⟩ := h.addNodes4 a b x y
    refine ⟨t1, h1.append e ?_, s1, o1, e, ?_, ?_, ?_⟩
    · intro n hn
      rcases (he n).1 hn with rfl | rfl | rfl | rfl
      · exact List.mem_map.2 ⟨_, m1, rfl⟩
      · exact List.mem_map.2 ⟨_, m2, rfl⟩
      · exact List.mem_map.2 ⟨_, m3, rfl⟩
      · exact List.mem_map.2 ⟨_, m4, rfl⟩
    · simp only [Ckt.append, e1]
    · rw [hn]; intro n hne
      simp only [List.mem_cons, List.not_mem_nil, or_false]
      rcases (he n).1 hne with rfl | rfl | rfl | rfl
      · exact ⟨a, Or.inl rfl, m1⟩
      · exact ⟨b, Or.inr (Or.inl rfl), m2⟩
      · exact ⟨x, Or.inr (Or.inr (Or.inl rfl)), m3⟩
      · exact ⟨y, Or.inr (Or.inr (Or.inr rfl)), m4⟩
    · rw [hn]; simp only [List.mem_cons, List.not_mem_nil, or_false]
      rintro s (rfl | rfl | rfl | rfl)
      · exact ⟨_, (he _).2 (Or.inl rfl), m1⟩
      · exact ⟨_, (he _).2 (Or.inr (Or.inl rfl)), m2⟩
      · exact ⟨_, (he _).2 (Or.inr (Or.inr (Or.inl rfl))), m3⟩
      · exact ⟨_, (he _).2 (Or.inr (Or.inr (Or.inr rfl))), m4⟩
  have ok : ∀ (r : Ckt α), (∃ t', BInv r t' ∧ (∀ e ∈ t, e ∈ t') ∧ r.models = c.models ∧
        (∃ e', r.elems = c.elems ++ [e'] ∧
        (∀ n ∈ nodesOf e', ∃ s ∈ o.names, (s, n) ∈ t') ∧
        (∀ s ∈ o.names, ∃ n ∈ nodesOf e', (s, n) ∈ t'))) → Build.add c o = (r, none) →
      ∃ t', BInv (Build.add c o).1 t' ∧ (∀ e ∈ t, e ∈ t') ∧ (Build.add c o).1.models = c.models ∧
      (((Build.add c o).2 ≠ none) → (Build.add c o).1.elems = c.elems ∧
        ((∀ s ∈ o.names, s ∈ t.map Prod.fst) → (Build.add c o).1 = c)) ∧
      (((Build.add c o).2 = none) → ∃ e, (Build.add c o).1.elems = c.elems ++ [e] ∧
        (∀ n ∈ nodesOf e, ∃ s ∈ o.names, (s, n) ∈ t') ∧
        (∀ s ∈ o.names, ∃ n ∈ nodesOf e, (s, n) ∈ t')) := by
    rintro r ⟨t', h1, h2, h3, h4⟩ hr
    rw [hr]
    exact ⟨t', h1, h2, h3, fun hh => absurd rfl hh, fun _ => h4⟩
  have bad : ∀ (r : Ckt α) (x : Err), (∃ t', BInv r t' ∧ (∀ e ∈ t, e ∈ t') ∧
        r.models = c.models ∧ r.elems = c.elems ∧
        ((∀ s ∈ o.names, s ∈ t.map Prod.fst) → r = c)) → Build.add c o = (r, some x) →
      ∃ t', BInv (Build.add c o).1 t' ∧ (∀ e ∈ t, e ∈ t') ∧ (Build.add c o).1.models = c.models ∧
      (((Build.add c o).2 ≠ none) → (Build.add c o).1.elems = c.elems ∧
        ((∀ s ∈ o.names, s ∈ t.map Prod.fst) → (Build.add c o).1 = c)) ∧
      (((Build.add c o).2 = none) → ∃ e, (Build.add c o).1.elems = c.elems ++ [e] ∧
        (∀ n ∈ nodesOf e, ∃ s ∈ o.names, (s, n) ∈ t') ∧
        (∀ s ∈ o.names, ∃ n ∈ nodesOf e, (s, n) ∈ t')) := by
    rintro r x ⟨t', h1, h2, h3, h4, h5⟩ hr
    rw [hr]
    refine ⟨t', h1, h2, h3, fun _ => ⟨h4, h5⟩, fun hh => by cases hh⟩
  have bad2 : ∀ (a b : String), o.names = [a, b] →
      (∃ t', BInv (c.addNodes2 a b).1 t' ∧ (∀ e ∈ t, e ∈ t') ∧
        (c.addNodes2 a b).1.models = c.models ∧ (c.addNodes2 a b).1.elems = c.elems ∧
        ((∀ s ∈ o.names, s ∈ t.map Prod.fst) → (c.addNodes2 a b).1 = c)) := by
    intro a b hn
    obtain ⟨t1, h1, s1, m1, m2, e1, o1, k1⟩ := h.addNodes2 a b
    refine ⟨t1, h1, s1, o1, e1, ?_⟩
    rw [hn]; intro hh
    exact (k1 (hh a (by simp)) (hh b (by simp))).1
  have bad4 : ∀ (a b x y : String), o.names = [a, b, x, y] →
      (∃ t', BInv (c.addNodes4 a b x y).1 t' ∧ (∀ e ∈ t, e ∈ t') ∧
        (c.addNodes4 a b x y).1.models = c.models ∧ (c.addNodes4 a b x y).1.elems = c.elems ∧
        ((∀ s ∈ o.names, s ∈ t.map Prod.fst) → (c.addNodes4 a b x y).1 = c)) := by
    intro a b x y hn
    obtain ⟨t1, h1, s1, m1, m2, m3, m4, e1, o1, k1⟩ := h.addNodes4 a b x y
    refine ⟨t1, h1, s1, o1, e1, ?_⟩
    rw [hn]; intro hh
    exact (k1 (hh a (by simp)) (hh b (by simp)) (hh x (by simp)) (hh y (by simp))).1
  cases o with
  | R id a b v =>
    by_cases hv : v = 0
    · exact bad _ .circuit (bad2 a b rfl) (by simp only [Build.add, hv, if_true])
    · exact ok _ (two a b rfl (.R id (c.addNodes2 a b).2.1 (c.addNodes2 a b).2.2 v) rfl)
        (by simp only [Build.add, hv, if_false])
  | C id a b v ic =>
    by_cases hv : v = 0
    · exact bad c .circuit ⟨t, h, fun _ hh => hh, rfl, rfl, fun _ => rfl⟩
        (by simp only [Build.add, hv, if_true])
    · exact ok _ (two a b rfl (.C id (c.addNodes2 a b).2.1 (c.addNodes2 a b).2.2 v ic) rfl)
        (by simp only [Build.add, hv, if_false])
  | L id a b v ic => exact ok _ (two a b rfl _ rfl) rfl
  | V id a b s => exact ok _ (two a b rfl _ rfl) rfl
  | I id a b s => exact ok _ (two a b rfl _ rfl) rfl
  | F id a b s v => exact ok _ (two a b rfl _ rfl) rfl
  | H id a b s v => exact ok _ (two a b rfl _ rfl) rfl
  | E id a b x y v =>
    exact ok _ (four a b x y rfl (.E id (c.addNodes4 a b x y).2.1 (c.addNodes4 a b x y).2.2.1
      (c.addNodes4 a b x y).2.2.2.1 (c.addNodes4 a b x y).2.2.2.2 v)
      (by intro n; simp [nodesOf])) rfl
  | G id a b x y v =>
    exact ok _ (four a b x y rfl (.G id (c.addNodes4 a b x y).2.1 (c.addNodes4 a b x y).2.2.1
      (c.addNodes4 a b x y).2.2.2.1 (c.addNodes4 a b x y).2.2.2.2 v)
      (by intro n; simp [nodesOf])) rfl
  | D id a b m =>
    cases hm : (c.addNodes2 a b).1.model m with
    | none => exact bad _ .model (bad2 a b rfl) (by simp only [Build.add, hm])
    | some k =>
      obtain ⟨t1, h1, s1, m1, m2, e1, o1, k1⟩ := h.addNodes2 a b
      refine ok _ ⟨t1, h1.append
        (.NL id (c.addNodes2 a b).2.1 (c.addNodes2 a b).2.2 none
          [((c.addNodes2 a b).2.1, (c.addNodes2 a b).2.2)]
          [((c.addNodes2 a b).2.1, (c.addNodes2 a b).2.2)]) ?_, s1, o1, _,
          by simp only [Ckt.append, e1]; rfl, ?_, ?_⟩
        (by simp only [Build.add, hm])
      · intro n hn
        simp [nodesOf] at hn
        have : n = (c.addNodes2 a b).2.1 ∨ n = (c.addNodes2 a b).2.2 := by tauto
        rcases this with rfl | rfl
        · exact List.mem_map.2 ⟨_, m1, rfl⟩
        · exact List.mem_map.2 ⟨_, m2, rfl⟩
      · intro n hn
        simp [nodesOf] at hn
        have : n = (c.addNodes2 a b).2.1 ∨ n = (c.addNodes2 a b).2.2 := by tauto
        rcases this with rfl | rfl
        · exact ⟨a, by simp [AddOp.names], m1⟩
        · exact ⟨b, by simp [AddOp.names], m2⟩
      · intro s hs
        simp only [AddOp.names, List.mem_cons, List.not_mem_nil, or_false] at hs
        rcases hs with rfl | rfl
        · exact ⟨_, by simp [nodesOf], m1⟩
        · exact ⟨_, by simp [nodesOf], m2⟩
  | M id a b x y m =>
    cases hm : (c.addNodes4 a b x y).1.model m with
    | none => exact bad _ .model (bad4 a b x y rfl) (by simp only [Build.add, hm])
    | some k =>
      cases k with
      | ekv =>
        exact ok _ (four a b x y rfl
          (.NL id (c.addNodes4 a b x y).2.1 (c.addNodes4 a b x y).2.2.2.1 none
            [((c.addNodes4 a b x y).2.1, (c.addNodes4 a b x y).2.2.2.2),
             ((c.addNodes4 a b x y).2.2.1, (c.addNodes4 a b x y).2.2.2.2),
             ((c.addNodes4 a b x y).2.2.2.1, (c.addNodes4 a b x y).2.2.2.2)]
            [((c.addNodes4 a b x y).2.1, (c.addNodes4 a b x y).2.2.2.1)])
          (by intro n; simp [nodesOf]; tauto)) (by simp only [Build.add, hm])
      | mosq =>
        exact ok _ (four a b x y rfl
          (.NL id (c.addNodes4 a b x y).2.1 (c.addNodes4 a b x y).2.2.2.1 none
            [((c.addNodes4 a b x y).2.1, (c.addNodes4 a b x y).2.2.2.1),
             ((c.addNodes4 a b x y).2.2.1, (c.addNodes4 a b x y).2.2.2.1),
             ((c.addNodes4 a b x y).2.2.2.2, (c.addNodes4 a b x y).2.2.2.1)]
            [((c.addNodes4 a b x y).2.1, (c.addNodes4 a b x y).2.2.2.1)])
          (by intro n; simp [nodesOf]; tauto)) (by simp only [Build.add, hm])
      | diode => exact bad _ .exn (bad4 a b x y rfl) (by simp only [Build.add, hm])
      | sw => exact bad _ .exn (bad4 a b x y rfl) (by simp only [Build.add, hm])
  | S id a b x y m =>
    cases hm : (c.addNodes4 a b x y).1.model m with
    | none => exact bad _ .model (bad4 a b x y rfl) (by simp only [Build.add, hm])
    | some k =>
      exact ok _ (four a b x y rfl
        (.NL id (c.addNodes4 a b x y).2.1 (c.addNodes4 a b x y).2.2.1
          (some ((c.addNodes4 a b x y).2.2.2.1, (c.addNodes4 a b x y).2.2.2.2))
          [((c.addNodes4 a b x y).2.1, (c.addNodes4 a b x y).2.2.1),
           ((c.addNodes4 a b x y).2.2.2.1, (c.addNodes4 a b x y).2.2.2.2)]
          [((c.addNodes4 a b x y).2.1, (c.addNodes4 a b x y).2.2.1)])
        (by intro n; simp [nodesOf]; tauto)) (by simp only [Build.add, hm])

theorem BInv.addAll [DecidableEq α] [Zero α] {c : Ckt α} {t} (h : BInv c t)
    (ops : List (AddOp α)) : ∃ t', BInv (addAll c ops) t' ∧ ∀ e ∈ t, e ∈ t' := by
  induction ops generalizing c t with
  | nil => exact ⟨t, h, fun _ => id⟩
  | cons o r ih =>
    obtain ⟨t1, h1, s1, -⟩ := h.add o
    obtain ⟨t2, h2, s2⟩ := ih h1
    exact ⟨t2, h2, fun e he => s2 e (s1 e he)⟩

theorem BInv.start (models : List (String × MKind)) :
    BInv ({ models := models } : Ckt α) [] :=
  ⟨Inv.empty, List.nodup_nil, by intro e he; cases he⟩

end Verif.Build
