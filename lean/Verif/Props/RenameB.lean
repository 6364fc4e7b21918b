import Verif.Props.Rename
import Verif.Props.Build
import Mathlib.GroupTheory.Perm.Basic

/-! C170, continued: circuits built through the API. -/

namespace Verif.Rename
open Verif.Circuit Verif.Mna Verif.Build Verif.Nodes

section
variable {α : Type}

theorem addNode_names {c : Ckt α} {t} (h : BInv c t) (s : String) :
    ∃ t', BInv (c.addNode s).1 t' ∧ (∀ e ∈ t, e ∈ t') ∧ (s, (c.addNode s).2) ∈ t' ∧
      (c.addNode s).1.elems = c.elems ∧ (c.addNode s).1.models = c.models ∧
      ∀ s', s' ∈ t'.map Prod.fst ↔ s' ∈ t.map Prod.fst ∨ s' = s := by
  cases hg : c.nodes.dict.get (.ext s) with
  | some k =>
    obtain ⟨n, rfl, hn⟩ := (h.inv.ext s k).1 hg
    have e : c.addNode s = (c, n) := by simp only [Ckt.addNode, Nodes.addNode, hg]
    rw [e]
    refine ⟨t, h, fun _ => id, hn, rfl, rfl, fun s' => ⟨.inl, ?_⟩⟩
    rintro (h | rfl)
    · exact h
    · exact List.mem_map.2 ⟨_, hn, rfl⟩
  | none =>
    have e : c.addNode s = ({ c with nodes := { c.nodes with dict := insertNode c.nodes.dict s } },
        freshNum c.nodes.dict s) := by simp only [Ckt.addNode, Nodes.addNode, hg]
    rw [e]
    refine ⟨(s, freshNum c.nodes.dict s) :: t, ⟨h.inv.insert s hg, (h.keys.set _ _).set _ _, ?_⟩,
      fun e he => List.mem_cons_of_mem _ he, List.mem_cons_self .., rfl, rfl, ?_⟩
    · intro e he n hn
      exact List.mem_cons_of_mem _ (h.elems e he n hn)
    · intro s'
      simp only [List.map_cons, List.mem_cons]
      tauto

theorem addNodes2_names {c : Ckt α} {t} (h : BInv c t) (a b : String) :
    ∃ t', BInv (c.addNodes2 a b).1 t' ∧ (∀ e ∈ t, e ∈ t') ∧ (a, (c.addNodes2 a b).2.1) ∈ t' ∧
      (b, (c.addNodes2 a b).2.2) ∈ t' ∧
      (c.addNodes2 a b).1.elems = c.elems ∧ (c.addNodes2 a b).1.models = c.models ∧
      ∀ s', s' ∈ t'.map Prod.fst ↔ s' ∈ t.map Prod.fst ∨ s' ∈ [a, b] := by
  obtain ⟨t1, h1, s1, m1, e1, o1, k1⟩ := addNode_names h a
  obtain ⟨t2, h2, s2, m2, e2, o2, k2⟩ := addNode_names h1 b
  refine ⟨t2, h2, fun e he => s2 e (s1 e he), s2 _ m1, m2, e2.trans e1, o2.trans o1, fun s' => ?_⟩
  rw [k2, k1]
  simp only [List.mem_cons, List.not_mem_nil, or_false]
  tauto

theorem addNodes4_names {c : Ckt α} {t} (h : BInv c t) (a b x y : String) :
    ∃ t', BInv (c.addNodes4 a b x y).1 t' ∧ (∀ e ∈ t, e ∈ t') ∧
      (a, (c.addNodes4 a b x y).2.1) ∈ t' ∧ (b, (c.addNodes4 a b x y).2.2.1) ∈ t' ∧
      (x, (c.addNodes4 a b x y).2.2.2.1) ∈ t' ∧ (y, (c.addNodes4 a b x y).2.2.2.2) ∈ t' ∧
      (c.addNodes4 a b x y).1.elems = c.elems ∧ (c.addNodes4 a b x y).1.models = c.models ∧
      ∀ s', s' ∈ t'.map Prod.fst ↔ s' ∈ t.map Prod.fst ∨ s' ∈ [a, b, x, y] := by
  obtain ⟨t1, h1, s1, ma, mb, e1, o1, k1⟩ := addNodes2_names h a b
  obtain ⟨t2, h2, s2, mx, my, e2, o2, k2⟩ := addNodes2_names h1 x y
  refine ⟨t2, h2, fun e he => s2 e (s1 e he), s2 _ ma, s2 _ mb, mx, my, e2.trans e1, o2.trans o1, fun s' => ?_⟩
  rw [k2, k1]
  simp only [List.mem_cons, List.not_mem_nil, or_false]
  tauto

/-- the element of a call, given the numbers of the nodes -/
def elemOf (model : String → Option MKind) (num : String → Nat) : AddOp α → Option (Elem α)
  | .R id a b v => some (.R id (num a) (num b) v)
  | .C id a b v ic => some (.C id (num a) (num b) v ic)
  | .L id a b v ic => some (.L id (num a) (num b) v ic [])
  | .V id a b s => some (.V id (num a) (num b) s)
  | .I id a b s => some (.I id (num a) (num b) s)
  | .E id a b x y v => some (.E id (num a) (num b) (num x) (num y) v)
  | .G id a b x y v => some (.G id (num a) (num b) (num x) (num y) v)
  | .F id a b s v => some (.F id (num a) (num b) s v)
  | .H id a b s v => some (.H id (num a) (num b) s v)
  | .D id a b _ => some (.NL id (num a) (num b) none [(num a, num b)] [(num a, num b)])
  | .M id d g s b m => match model m with
    | some .ekv =>
      some (.NL id (num d) (num s) none [(num d, num b), (num g, num b), (num s, num b)] [(num d, num s)])
    | some .mosq =>
      some (.NL id (num d) (num s) none [(num d, num s), (num g, num s), (num b, num s)] [(num d, num s)])
    | _ => none
  | .S id a b x y _ => some (.NL id (num a) (num b) (some (num x, num y)) [(num a, num b), (num x, num y)] [(num a, num b)])

theorem elemOf_rename (model : String → Option MKind) (num : String → Nat) (p : Nat → Nat) (o : AddOp α) :
    (elemOf model num o).map (rename p) = elemOf model (fun s => p (num s)) o := by
  cases o with
  | M id d g s b m =>
    simp only [elemOf]
    rcases model m with _ | k
    · rfl
    · cases k <;> rfl
  | _ => rfl

variable [DecidableEq α] [Zero α]

theorem add_elem {c : Ckt α} {t} (h : BInv c t) (o : AddOp α) (ho : (add c o).2 = none) :
    ∃ t', BInv (add c o).1 t' ∧ (∀ e ∈ t, e ∈ t') ∧ (add c o).1.models = c.models ∧
      (∀ s', s' ∈ t'.map Prod.fst ↔ s' ∈ t.map Prod.fst ∨ s' ∈ o.names) ∧
      ∀ num : String → Nat, (∀ s n, (s, n) ∈ t' → num s = n) →
        ∃ e, elemOf c.model num o = some e ∧ (add c o).1.elems = c.elems ++ [e] := by
  have two : ∀ (a b : String), o.names = [a, b] → ∀ (e : Nat → Nat → Elem α),
      (∀ i j, nodesOf (e i j) = [i, j] ∨ nodesOf (e i j) = [i, j, i, j, i, j]) →
      (∀ num, elemOf c.model num o = some (e (num a) (num b))) →
      add c o = ((c.addNodes2 a b).1.append (e (c.addNodes2 a b).2.1 (c.addNodes2 a b).2.2), none) →
      ∃ t', BInv (add c o).1 t' ∧ (∀ e ∈ t, e ∈ t') ∧ (add c o).1.models = c.models ∧
      (∀ s', s' ∈ t'.map Prod.fst ↔ s' ∈ t.map Prod.fst ∨ s' ∈ o.names) ∧
      ∀ num : String → Nat, (∀ s n, (s, n) ∈ t' → num s = n) →
        ∃ e, elemOf c.model num o = some e ∧ (add c o).1.elems = c.elems ++ [e] := by
    intro a b hn e he hel hadd
    obtain ⟨t1, h1, s1, m1, m2, e1, o1, k1⟩ := addNodes2_names h a b
    rw [hadd, hn]
    refine ⟨t1, h1.append _ ?_, s1, o1, k1, fun num hnum => ⟨_, hel num, ?_⟩⟩
    · intro n hne
      have : n = (c.addNodes2 a b).2.1 ∨ n = (c.addNodes2 a b).2.2 := by
        rcases he (c.addNodes2 a b).2.1 (c.addNodes2 a b).2.2 with hh | hh <;> rw [hh] at hne <;>
          simp only [List.mem_cons, List.not_mem_nil, or_false] at hne <;> tauto
      rcases this with rfl | rfl
      · exact List.mem_map.2 ⟨_, m1, rfl⟩
      · exact List.mem_map.2 ⟨_, m2, rfl⟩
    · rw [hnum _ _ m1, hnum _ _ m2]
      simp only [Ckt.append, e1]
  have four : ∀ (a b x y : String), o.names = [a, b, x, y] → ∀ (e : Nat → Nat → Nat → Nat → Elem α),
      (∀ i j k l n, n ∈ nodesOf (e i j k l) → n = i ∨ n = j ∨ n = k ∨ n = l) →
      (∀ num, elemOf c.model num o = some (e (num a) (num b) (num x) (num y))) →
      add c o = ((c.addNodes4 a b x y).1.append (e (c.addNodes4 a b x y).2.1 (c.addNodes4 a b x y).2.2.1
        (c.addNodes4 a b x y).2.2.2.1 (c.addNodes4 a b x y).2.2.2.2), none) →
      ∃ t', BInv (add c o).1 t' ∧ (∀ e ∈ t, e ∈ t') ∧ (add c o).1.models = c.models ∧
      (∀ s', s' ∈ t'.map Prod.fst ↔ s' ∈ t.map Prod.fst ∨ s' ∈ o.names) ∧
      ∀ num : String → Nat, (∀ s n, (s, n) ∈ t' → num s = n) →
        ∃ e, elemOf c.model num o = some e ∧ (add c o).1.elems = c.elems ++ [e] := by
    intro a b x y hn e he hel hadd
    obtain ⟨t1, h1, s1, m1, m2, m3, m4, e1, o1, k1⟩ := addNodes4_names h a b x y
    rw [hadd, hn]
    refine ⟨t1, h1.append _ ?_, s1, o1, k1, fun num hnum => ⟨_, hel num, ?_⟩⟩
    · intro n hne
      rcases he _ _ _ _ n hne with rfl | rfl | rfl | rfl
      · exact List.mem_map.2 ⟨_, m1, rfl⟩
      · exact List.mem_map.2 ⟨_, m2, rfl⟩
      · exact List.mem_map.2 ⟨_, m3, rfl⟩
      · exact List.mem_map.2 ⟨_, m4, rfl⟩
    · rw [hnum _ _ m1, hnum _ _ m2, hnum _ _ m3, hnum _ _ m4]
      simp only [Ckt.append, e1]
  have hm2 : ∀ a b m, (c.addNodes2 a b).1.model m = c.model m := fun a b m => by
    simp only [Ckt.model, (addNodes2_names h a b).choose_spec.2.2.2.2.2.1]
  have hm4 : ∀ a b x y m, (c.addNodes4 a b x y).1.model m = c.model m := fun a b x y m => by
    simp only [Ckt.model, (addNodes4_names h a b x y).choose_spec.2.2.2.2.2.2.2.1]
  have hfail := C64_failure_iff c o
  rw [ho] at hfail
  cases o with
  | R id a b v =>
    have hv : v ≠ 0 := by
      intro hv; simp [hv] at hfail
    exact two a b rfl (fun i j => .R id i j v) (fun _ _ => .inl rfl) (fun _ => rfl) (by simp [add, hv])
  | C id a b v ic =>
    have hv : v ≠ 0 := by
      intro hv; simp [hv] at hfail
    exact two a b rfl (fun i j => .C id i j v ic) (fun _ _ => .inl rfl) (fun _ => rfl) (by simp [add, hv])
  | L id a b v ic => exact two a b rfl (fun i j => .L id i j v ic []) (fun _ _ => .inl rfl) (fun _ => rfl) rfl
  | V id a b s => exact two a b rfl (fun i j => .V id i j s) (fun _ _ => .inl rfl) (fun _ => rfl) rfl
  | I id a b s => exact two a b rfl (fun i j => .I id i j s) (fun _ _ => .inl rfl) (fun _ => rfl) rfl
  | F id a b s v => exact two a b rfl (fun i j => .F id i j s v) (fun _ _ => .inl rfl) (fun _ => rfl) rfl
  | H id a b s v => exact two a b rfl (fun i j => .H id i j s v) (fun _ _ => .inl rfl) (fun _ => rfl) rfl
  | E id a b x y v =>
    exact four a b x y rfl (fun i j k l => .E id i j k l v) (by simp [nodesOf]) (fun _ => rfl) rfl
  | G id a b x y v =>
    exact four a b x y rfl (fun i j k l => .G id i j k l v) (by simp [nodesOf]) (fun _ => rfl) rfl
  | D id a b m =>
    cases hm : c.model m with
    | none => simp [hm] at hfail
    | some k =>
      exact two a b rfl (fun i j => .NL id i j none [(i, j)] [(i, j)]) (fun _ _ => .inr (by simp [nodesOf]))
        (fun _ => rfl) (by simp [add, hm2, hm])
  | S id a b x y m =>
    cases hm : c.model m with
    | none => simp [hm] at hfail
    | some k =>
      exact four a b x y rfl (fun i j k l => .NL id i j (some (k, l)) [(i, j), (k, l)] [(i, j)])
        (by intro i j k l n hn; simp [nodesOf] at hn; tauto) (fun _ => rfl) (by simp [add, hm4, hm])
  | M id a b x y m =>
    cases hm : c.model m with
    | none => simp [hm] at hfail
    | some k =>
      cases k with
      | ekv =>
        exact four a b x y rfl (fun i j k l => .NL id i k none [(i, l), (j, l), (k, l)] [(i, k)])
          (by intro i j k l n hn; simp [nodesOf] at hn; tauto) (fun _ => by simp [elemOf, hm]) (by simp [add, hm4, hm])
      | mosq =>
        exact four a b x y rfl (fun i j k l => .NL id i k none [(i, k), (j, k), (l, k)] [(i, k)])
          (by intro i j k l n hn; simp [nodesOf] at hn; tauto) (fun _ => by simp [elemOf, hm]) (by simp [add, hm4, hm])
      | diode => simp [hm] at hfail
      | sw => simp [hm] at hfail

theorem addAll_elems (ops : List (AddOp α)) {c : Ckt α} {t} (h : BInv c t) (ho : ∀ o ∈ ops, (add c o).2 = none) :
    ∃ t', BInv (addAll c ops) t' ∧ (∀ e ∈ t, e ∈ t') ∧
      (∀ s', s' ∈ t'.map Prod.fst ↔ s' ∈ t.map Prod.fst ∨ ∃ o ∈ ops, s' ∈ o.names) ∧
      ∀ num : String → Nat, (∀ s n, (s, n) ∈ t' → num s = n) →
        (addAll c ops).elems = c.elems ++ ops.filterMap (elemOf c.model num) := by
  induction ops generalizing c t with
  | nil => exact ⟨t, h, fun _ => id, by simp, fun _ _ => by simp [addAll]⟩
  | cons o r ih =>
    obtain ⟨t1, h1, s1, m1, k1, e1⟩ := add_elem h o (ho o (by simp))
    have hmod : (add c o).1.model = c.model := by
      funext m; simp only [Ckt.model, m1]
    have hr : ∀ o' ∈ r, (add (add c o).1 o').2 = none := by
      intro o' ho'
      have := ho o' (by simp [ho'])
      rw [C64_failure_iff] at this ⊢
      rw [hmod]
      exact this
    obtain ⟨t2, h2, s2, k2, e2⟩ := ih h1 hr
    refine ⟨t2, h2, fun e he => s2 e (s1 e he), fun s' => ?_, fun num hnum => ?_⟩
    · rw [k2, k1]
      simp only [List.mem_cons, exists_eq_or_imp]
      tauto
    · obtain ⟨e, he, hadd⟩ := e1 num (fun s n hm => hnum s n (s2 _ hm))
      have := e2 num hnum
      rw [hmod, hadd] at this
      show (addAll (add c o).1 r).elems = _
      rw [this, List.filterMap_cons, he]
      simp

theorem table_fun {d : Dict} {t : List (String × Nat)} (h : Inv d t) {s : String} {n n' : Nat} (h1 : (s, n) ∈ t)
    (h2 : (s, n') ∈ t) : n = n' := by
  have a := (h.ext s (.int n)).2 ⟨n, rfl, h1⟩
  have b := (h.ext s (.int n')).2 ⟨n', rfl, h2⟩
  rw [a] at b
  simpa using b

theorem table_inj {d : Dict} {t : List (String × Nat)} (h : Inv d t) {s s' : String} {n : Nat} (h1 : (s, n) ∈ t)
    (h2 : (s', n) ∈ t) : s = s' := by
  have a := (h.int n (.ext s)).2 ⟨s, rfl, h1⟩
  have b := (h.int n (.ext s')).2 ⟨s', rfl, h2⟩
  rw [a] at b
  simpa using b

/-- C170: the same `add_*` calls in another order give the same elements, in another order, between nodes that have other
numbers but the same names. -/
theorem C170_build (models : List (String × MKind)) {ops ops' : List (AddOp α)} (hperm : ops.Perm ops')
    (hok : ∀ o ∈ ops, (add ({ models := models } : Ckt α) o).2 = none) (h0 : ∃ o ∈ ops, "0" ∈ o.names) :
    ∃ p : Equiv.Perm Nat,
      Renumbers (nodesNumber (addAll ({ models := models } : Ckt α) ops).nodes) p ∧
      nodesNumber (addAll ({ models := models } : Ckt α) ops').nodes =
        nodesNumber (addAll ({ models := models } : Ckt α) ops).nodes ∧
      ((addAll ({ models := models } : Ckt α) ops).elems.map (rename p)).Perm
        (addAll ({ models := models } : Ckt α) ops').elems ∧
      ∀ s n, extToInt (addAll ({ models := models } : Ckt α) ops).nodes s = some n →
        extToInt (addAll ({ models := models } : Ckt α) ops').nodes s = some (p n) := by
  have hE : BInv ({ models := models } : Ckt α) [] := ⟨Inv.empty, by simp [KeysNodup], by simp⟩
  obtain ⟨t, ht, -, kt, et⟩ := addAll_elems ops hE hok
  obtain ⟨t', ht', -, kt', et'⟩ := addAll_elems ops' hE (fun o ho => hok o (hperm.mem_iff.2 ho))
  set c := addAll ({ models := models } : Ckt α) ops
  set c' := addAll ({ models := models } : Ckt α) ops'
  have hnames : ∀ s, s ∈ t.map Prod.fst ↔ s ∈ t'.map Prod.fst := by
    intro s
    rw [kt, kt']
    simp only [hperm.mem_iff]
  have hlen : t.length = t'.length := by
    have := (List.perm_ext_iff_of_nodup ht.inv.names ht'.inv.names).2 hnames
    simpa using this.length_eq
  have n1 : nodesNumber c.nodes = t.length := by
    unfold nodesNumber; rw [ht.inv.len]; omega
  have n2 : nodesNumber c'.nodes = t'.length := by
    unfold nodesNumber; rw [ht'.inv.len]; omega
  have z : "0" ∈ t.map Prod.fst := (kt "0").2 (.inr h0)
  have z' : "0" ∈ t'.map Prod.fst := (hnames "0").1 z
  have r1 : ∀ n, n ∈ t.map Prod.snd ↔ n < t.length := fun n => by rw [ht.inv.rng n, if_pos z]
  have r2 : ∀ n, n ∈ t'.map Prod.snd ↔ n < t.length := fun n => by rw [ht'.inv.rng n, if_pos z', hlen]
  -- the number of the same name in the other table
  have ex : ∀ n, n < t.length → ∃ s n', (s, n) ∈ t ∧ (s, n') ∈ t' ∧ n' < t.length := by
    intro n hn
    obtain ⟨⟨s, n0⟩, hs, rfl⟩ := List.mem_map.1 ((r1 n).2 hn)
    obtain ⟨⟨s', n'⟩, hs', hee⟩ := List.mem_map.1 ((hnames s).1 (List.mem_map.2 ⟨_, hs, rfl⟩))
    simp only at hee
    subst hee
    exact ⟨s', n', hs, hs', (r2 n').1 (List.mem_map.2 ⟨_, hs', rfl⟩)⟩
  choose f hf using fun n : {n // n < t.length} => ex n.1 n.2
  choose g hg using hf
  let F : {n // n < t.length} → {n // n < t.length} := fun n => ⟨g n, (hg n).2.2⟩
  have hinj : Function.Injective F := by
    intro a b hab
    have e1 : g a = g b := congrArg Subtype.val hab
    have e2 : f a = f b := table_inj ht'.inv (hg a).2.1 (by rw [e1]; exact (hg b).2.1)
    have e3 := (hg a).1
    rw [e2] at e3
    exact Subtype.ext (table_fun ht.inv e3 (hg b).1)
  let q : Equiv.Perm {n // n < t.length} := Equiv.ofBijective F (Finite.injective_iff_bijective.1 hinj)
  have hp1 : ∀ n (hn : n < t.length), Equiv.Perm.ofSubtype q n = g ⟨n, hn⟩ := by
    intro n hn
    rw [Equiv.Perm.ofSubtype_apply_of_mem q hn]
    rfl
  have hnum : ∀ s n, (s, n) ∈ t → (s, Equiv.Perm.ofSubtype q n) ∈ t' := by
    intro s n hs
    have hn : n < t.length := (r1 n).1 (List.mem_map.2 ⟨_, hs, rfl⟩)
    rw [hp1 n hn]
    have := (hg ⟨n, hn⟩)
    rw [table_inj ht.inv hs this.1]
    exact this.2.1
  refine ⟨Equiv.Perm.ofSubtype q, ⟨?_, ?_⟩, ?_, ?_, ?_⟩
  · obtain ⟨⟨s, n⟩, hs, hee⟩ := List.mem_map.1 z
    simp only at hee
    subst hee
    have hn : n = 0 := (ht.inv.zero "0" n hs).2 rfl
    subst hn
    exact (ht'.inv.zero "0" _ (hnum "0" 0 hs)).2 rfl
  · intro i hi
    exact Equiv.Perm.ofSubtype_apply_of_not_mem q (by rw [n1] at hi; simpa using hi)
  · rw [n1, n2, hlen]
  · have a := et (fun s => (extToInt c.nodes s).getD 0) (fun s n hs => by
      simp only [(ht.inv.extToInt_iff s n).2 hs, Option.getD_some])
    have b := et' (fun s => Equiv.Perm.ofSubtype q ((extToInt c.nodes s).getD 0)) (fun s n' hs => by
      obtain ⟨⟨s0, n⟩, h1, hee⟩ := List.mem_map.1 ((hnames s).2 (List.mem_map.2 ⟨_, hs, rfl⟩))
      simp only at hee
      subst hee
      simp only [(ht.inv.extToInt_iff s0 n).2 h1, Option.getD_some]
      exact table_fun ht'.inv (hnum s0 n h1) hs)
    simp only [List.nil_append] at a b
    rw [a, b, List.map_filterMap]
    simp only [elemOf_rename]
    exact hperm.filterMap _
  · intro s n hs
    rw [ht'.inv.extToInt_iff]
    exact hnum s n ((ht.inv.extToInt_iff s n).1 hs)

end

/-! ### Operating points, by name -/

section
open Matrix Verif.Rlc Verif.Bound
variable {K : Type} [Field K] [LinearOrder K] [IsStrictOrderedRing K] {m : Nat}

/-- C170: two circuits built by the same `add_*` calls in any order: `op_analysis` reports the same voltage for every
node name and the same current for every voltage-defined element. -/
theorem C170_names (models : List (String × MKind)) {ops ops' : List (AddOp K)} (hperm : ops.Perm ops')
    (hok : ∀ o ∈ ops, (add ({ models := models } : Ckt K) o).2 = none) (h0 : ∃ o ∈ ops, "0" ∈ o.names)
    {c c' : Ckt K} (hc : c = addAll { models := models } ops) (hc' : c' = addAll { models := models } ops')
    (hu : UniqueVde c.elems) (hpr : ∀ e ∈ c.elems, Proper e) {s s' : Sys K}
    (h : generate c.elems (nodesNumber c.nodes) = .ok s) (h' : generate c'.elems (nodesNumber c'.nodes) = .ok s')
    (hm : s.size = m + 1) {o : Op.OOpts K} (ho : Op.Plain o) (hstd : o.meth.std = true) (gmin : K)
    (hd : (reduce m s.M).det ≠ 0) (hd' : (reduce m s.M + Op.gminMat (nodesNumber c.nodes - 1) gmin).det ≠ 0)
    (x0 y0 : Option (Fin m → K)) :
    ∃ x y : Fin m → K, Op.opAnalysis o (opCirc m (nodesNumber c.nodes) s) gmin x0 = some (some ⟨x, 0⟩) ∧
      Op.opAnalysis o (opCirc m (nodesNumber c'.nodes) s') gmin y0 = some (some ⟨y, 0⟩) ∧
      (∀ name n n', extToInt c.nodes name = some n → extToInt c'.nodes name = some n' →
        Rlc.ext y n' = Rlc.ext x n) ∧
      ∀ e ∈ c.elems, e.vde = true → Rlc.ext y (nodesNumber c'.nodes + branchOf c'.elems e.id) =
        Rlc.ext x (nodesNumber c.nodes + branchOf c.elems e.id) := by
  obtain ⟨p, hp, hn, hpe, hnum⟩ := C170_build models hperm hok h0
  rw [← hc, ← hc'] at hn hpe hnum
  rw [← hc] at hp
  have hE : BInv ({ models := models } : Ckt K) [] := ⟨Inv.empty, by simp [KeysNodup], by simp⟩
  obtain ⟨t, ht, -, kt, -⟩ := addAll_elems ops hE hok
  rw [← hc] at ht
  have hbuilt : BuiltBy c := ⟨models, ops, hc⟩
  obtain ⟨⟨s0, n0⟩, hs0, hee⟩ := List.mem_map.1 ((kt "0").2 (.inr h0))
  simp only at hee
  subst hee
  have z0 : (extToInt c.nodes "0").isSome := by rw [(ht.inv.extToInt_iff "0" n0).2 hs0]; rfl
  have hnl : ∀ e ∈ c.elems, NodesLt (nodesNumber c.nodes) e := fun e he => (C76_rows_valid c hbuilt z0 e he).2
  have len : nodesNumber c.nodes = t.length := by
    unfold nodesNumber; rw [ht.inv.len]; omega
  have hnv : 0 < nodesNumber c.nodes := by
    rw [len]; exact List.length_pos_of_mem hs0
  rw [hn] at h' ⊢
  obtain ⟨x, y, e1, e2, e3, e4⟩ := C170_op hnv hp hpe hu hnl hpr h h' hm ho hstd gmin hd hd' x0 y0
  refine ⟨x, y, e1, e2, fun name n n' h1 h2 => ?_, fun e he hv => ?_⟩
  · have := hnum name n h1
    rw [h2, Option.some.injEq] at this
    rw [this]
    apply e3
    have : n ∈ t.map Prod.snd := List.mem_map.2 ⟨_, (ht.inv.extToInt_iff name n).1 h1, rfl⟩
    rw [ht.inv.rng n, if_pos (List.mem_map.2 ⟨_, hs0, rfl⟩)] at this
    rw [len]; exact this
  · have hme : e ∈ vdes c.elems := List.mem_filter.2 ⟨he, hv⟩
    obtain ⟨k, hk⟩ := List.mem_iff_getElem?.1 hme
    have hme' : rename p e ∈ vdes c'.elems := by
      rw [← (vdes_perm hpe).mem_iff, vdes_rename]
      exact List.mem_map_of_mem hme
    obtain ⟨k', hk'⟩ := List.mem_iff_getElem?.1 hme'
    have b := branchOf_eq hu hk
    have b' := branchOf_eq ((unique_rename p hu).perm hpe) hk'
    rw [rename_id] at b'
    rw [b, b']
    exact e4 k k' e hk hk'

end

/-! ### AC analysis -/

section
open Verif.Ac Matrix Verif.Scale
variable {m : Nat}

/-- the circuit with other numbers of the unknowns -/
noncomputable def permAc (q : Equiv.Perm (Fin m)) (c : AcIn m) : AcIn m :=
  { mna := fun i j => c.mna (q.symm i) (q.symm j)
    AC := fun i j => c.AC (q.symm i) (q.symm j)
    J := fun i j => c.J (q.symm i) (q.symm j)
    Nac := fun i => c.Nac (q.symm i)
    nn := c.nn
    gmin := c.gmin }

theorem Y_perm {q : Equiv.Perm (Fin m)} (c : AcIn m) (hq : ∀ i : Fin m, (q i).val < c.nn ↔ i.val < c.nn) (w g : ℝ) :
    Y (permAc q c) w g = (Y c w g).submatrix q.symm q.symm := by
  ext i j
  have hi : (q.symm i).val < c.nn ↔ i.val < c.nn := by
    rw [← hq (q.symm i), Equiv.apply_symm_apply]
  simp only [Y, of_apply, permAc, submatrix_apply, hi, EmbeddingLike.apply_eq_iff_eq]
  congr

theorem solves_perm {q : Equiv.Perm (Fin m)} (c : AcIn m) (hq : ∀ i : Fin m, (q i).val < c.nn ↔ i.val < c.nn) (w : ℝ) :
    (Stuck (permAc q c) w ↔ Stuck c w) ∧ ∀ z, Solves c w z → Solves (permAc q c) w (fun i => z (q.symm i)) := by
  have hd : ∀ g, (Y (permAc q c) w g).det = (Y c w g).det := fun g => by
    rw [Y_perm c hq]; exact det_submatrix_equiv_self q.symm _
  have hm : ∀ g (z : Fin m → ℂ), Y c w g *ᵥ z + c.Nac = 0 →
      Y (permAc q c) w g *ᵥ (fun i => z (q.symm i)) + (permAc q c).Nac = 0 := by
    intro g z h
    funext i
    have hi := congrFun h (q.symm i)
    rw [Y_perm c hq]
    simp only [Pi.add_apply, Pi.zero_apply] at hi ⊢
    rw [← hi]
    congr 1
    exact Fintype.sum_equiv q.symm _ _ fun j => rfl
  have hg : (permAc q c).gmin = c.gmin := rfl
  constructor
  · unfold Stuck
    rw [hg, hd, hd]
  · intro z hz
    unfold Solves at hz ⊢
    rw [hg, hd, hd]
    rcases hz with ⟨h1, h2⟩ | ⟨h1, h2, h3⟩
    · exact .inl ⟨h1, hm _ _ h2⟩
    · exact .inr ⟨h1, h2, hm _ _ h3⟩

/-- C170: with other numbers for the unknowns `ac_analysis` finds the same phasors at the same frequencies. -/
theorem C170_ac {o : AOpts} (ho : Default o) {q : Equiv.Perm (Fin m)} (c : AcIn m)
    (hq : ∀ i : Fin m, (q i).val < c.nn ↔ i.val < c.nn) (t : SweepType) (start stop : ℝ) (points : Nat)
    (x0 y0 : Fin m → ℂ) :
    (∃ e, acAnalysis o c t start stop points x0 = .error e ∧ acAnalysis o (permAc q c) t start stop points y0 = .error e) ∨
    (acAnalysis o c t start stop points x0 = .ok none ∧ acAnalysis o (permAc q c) t start stop points y0 = .ok none) ∨
    ∃ p : List (ℝ × (Fin m → ℂ)), acAnalysis o c t start stop points x0 = .ok (some p) ∧
      acAnalysis o (permAc q c) t start stop points y0 = .ok (some (p.map fun f => (f.1, fun i => f.2 (q.symm i)))) := by
  cases hw : omegas t start stop points (points + 2) with
  | error e => exact .inl ⟨e, by simp [acAnalysis, hw], by simp [acAnalysis, hw]⟩
  | ok ws =>
    right
    have st := fun w => (solves_perm c hq w).1
    rcases sweep_spec ho c ws x0 [] with ⟨⟨w, hw1, hw2⟩, e1⟩ | ⟨k1, p1, e1, f1⟩
    · rcases sweep_spec ho (permAc q c) ws y0 [] with ⟨-, e2⟩ | ⟨k2, -⟩
      · exact .inl ⟨by simp [acAnalysis, hw, e1], by simp [acAnalysis, hw, e2]⟩
      · exact absurd ((st w).2 hw2) (k2 w hw1)
    · rcases sweep_spec ho (permAc q c) ws y0 [] with ⟨⟨w, hw1, hw2⟩, -⟩ | ⟨-, p2, e2, f2⟩
      · exact absurd ((st w).1 hw2) (k1 w hw1)
      · refine .inr ⟨p1, by simp [acAnalysis, hw, e1], ?_⟩
        have : p2 = p1.map fun f => (f.1, fun i => f.2 (q.symm i)) := by
          have l1 := f1.length_eq
          have l2 := f2.length_eq
          apply List.ext_getElem (by simp; omega)
          intro i hi hi'
          have hi1 : i < p1.length := by omega
          have hiw : i < ws.length := by omega
          have s1 := f1.get hiw hi1
          have s2 := f2.get hiw hi
          simp only [List.get_eq_getElem] at s1 s2
          rw [List.getElem_map]
          ext1
          · show p2[i].1 = p1[i].1
            rw [s1.1, s2.1]
          · exact solves_unique ((solves_perm c hq _).2 _ s1.2) s2.2
        simp [acAnalysis, hw, e2, this]

end

/-! ### Examples -/

/-- a voltage divider; in the other order node 2 comes first -/
def exOps : List (AddOp ℚ) := [.V "V1" "a" "0" { dc := some 6 }, .R "R1" "a" "b" 2, .R "R2" "b" "0" 4]
def exOps' : List (AddOp ℚ) := [.R "R2" "b" "0" 4, .R "R1" "a" "b" 2, .V "V1" "a" "0" { dc := some 6 }]

/-- hypotheses of `C170_build` and `C170_names` -/
example : exOps.Perm exOps' ∧ (∀ o ∈ exOps, (add ({} : Ckt ℚ) o).2 = none) ∧ (∃ o ∈ exOps, "0" ∈ o.names) ∧
    extToInt (addAll {} exOps).nodes "a" = some 1 ∧ extToInt (addAll {} exOps').nodes "a" = some 2 ∧
    UniqueVde (addAll {} exOps).elems ∧ (∀ e ∈ (addAll {} exOps).elems, Proper e) := by
  refine ⟨List.reverse_perm exOps |>.symm, ?_, ?_, by decide +kernel, by decide +kernel, by decide +kernel, ?_⟩
  · intro o ho
    simp only [exOps, List.mem_cons, List.not_mem_nil, or_false] at ho
    rcases ho with rfl | rfl | rfl <;> decide +kernel
  · exact ⟨.V "V1" "a" "0" { dc := some 6 }, by simp [exOps], by simp [AddOp.names]⟩
  · have : (addAll {} exOps).elems = [.V "V1" 1 0 { dc := some 6 }, .R "R1" 1 2 2, .R "R2" 2 0 4] := by rfl
    rw [this]
    simp [Proper]

example : (Bound.sysOf (addAll {} exOps).elems 3).size = 4 ∧
    (Rlc.reduce 3 (Bound.sysOf (addAll {} exOps).elems 3).M).det ≠ 0 ∧
    (Rlc.reduce 3 (Bound.sysOf (addAll {} exOps).elems 3).M + Op.gminMat 2 (1 / 1000)).det ≠ 0 := by
  simp only [Matrix.det_fin_three]
  decide +kernel

end Verif.Rename
