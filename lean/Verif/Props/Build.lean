import Verif.Proof.Build
import Verif.Proof.Mna

/-!
Properties C64 (failing `add_*` calls) and C76 (elements of a circuit built through the API
refer to valid nodes).
-/

namespace Verif.Build
open Verif.Circuit Verif.Nodes

variable {α : Type} [DecidableEq α] [Zero α]

/-- A circuit built from an empty one (with some models) by any history of `add_*` calls. -/
def BuiltBy (c : Ckt α) : Prop := ∃ models ops, c = addAll ({ models := models } : Ckt α) ops

theorem BuiltBy.inv {c : Ckt α} (h : BuiltBy c) : ∃ t, BInv c t := by
  obtain ⟨m, ops, rfl⟩ := h
  obtain ⟨t, ht, -⟩ := (BInv.start (α := α) m).addAll ops
  exact ⟨t, ht⟩

/-- C64 (what holds for every failing call): the elements and the models are as before,
every node known before keeps its number, and if the nodes named in the call were all
known the circuit is exactly as before. Missing for C64: new nodes named by a failing call
stay behind, see the refutation. -/
theorem C64_failed_add_partial (c : Ckt α) (hc : BuiltBy c) (o : AddOp α)
    (hf : (add c o).2 ≠ none) :
    (add c o).1.elems = c.elems ∧ (add c o).1.models = c.models ∧
    (∀ s n, extToInt c.nodes s = some n → extToInt (add c o).1.nodes s = some n) ∧
    ((∀ s ∈ o.names, (extToInt c.nodes s).isSome) → (add c o).1 = c) := by
  obtain ⟨t, h⟩ := hc.inv
  obtain ⟨t', h', hs, hm, hbad, -⟩ := h.add o
  refine ⟨(hbad hf).1, hm, ?_, ?_⟩
  · intro s n hn
    rw [h'.inv.extToInt_iff]
    exact hs _ ((h.inv.extToInt_iff s n).1 hn)
  · intro hk
    apply (hbad hf).2
    intro s hsn
    obtain ⟨n, hn⟩ := Option.isSome_iff_exists.1 (hk s hsn)
    exact List.mem_map.2 ⟨_, (h.inv.extToInt_iff s n).1 hn, rfl⟩

/-- C64 for a capacitor: the zero check comes first, so a refused capacitor leaves no
trace at all, whatever the circuit. -/
theorem C64_capacitor (c : Ckt α) (id a b : String) (ic : Option α) :
    add c (.C id a b 0 ic) = (c, some .circuit) := by
  simp [add]

/-- C64: which calls fail, and how. -/
theorem C64_failure_iff (c : Ckt α) (o : AddOp α) :
    (add c o).2 = match o with
      | .R _ _ _ v => if v = 0 then some .circuit else none
      | .C _ _ _ v _ => if v = 0 then some .circuit else none
      | .D _ _ _ m | .S _ _ _ _ _ m => if (c.model m).isSome then none else some .model
      | .M _ _ _ _ _ m =>
        if c.model m = none then some .model
        else if c.model m = some .ekv ∨ c.model m = some .mosq then none else some .exn
      | _ => none := by
  have hm1 : ∀ (c : Ckt α) s, (c.addNode s).1.models = c.models := fun _ _ => rfl
  have hm2 : ∀ (c : Ckt α) a b m, (c.addNodes2 a b).1.model m = c.model m := by
    intro c a b m; simp [Ckt.model, Ckt.addNodes2, hm1]
  have hm4 : ∀ (c : Ckt α) a b x y m, (c.addNodes4 a b x y).1.model m = c.model m := by
    intro c a b x y m
    show ((c.addNodes2 a b).1.addNodes2 x y).1.model m = _
    rw [hm2, hm2]
  cases o with
  | R id a b v => by_cases hv : v = 0 <;> simp [add, hv]
  | C id a b v ic => by_cases hv : v = 0 <;> simp [add, hv]
  | D id a b m => cases hm : c.model m <;> simp [add, hm2, hm]
  | S id a b x y m => cases hm : c.model m <;> simp [add, hm4, hm]
  | M id a b x y m =>
    cases hm : c.model m with
    | none => simp [add, hm4, hm]
    | some k => cases k <;> simp [add, hm4, hm]
  | _ => rfl

/-- C64 is false: a refused zero resistance between new nodes leaves the nodes behind, and
so do devices with an unknown model. The left-over nodes then count in the size of the
equation system. -/
theorem C64_failed_add_refuted :
    let c : Ckt ℚ := addAll {} [.R "R1" "a" "0" 1]
    (∃ o, (add c o).2 = some .circuit ∧ extToInt (add c o).1.nodes "b" ≠ extToInt c.nodes "b" ∧
      nodesNumber (add c o).1.nodes = nodesNumber c.nodes + 1) ∧
    (∃ o, (add c o).2 = some .model ∧ nodesNumber (add c o).1.nodes = nodesNumber c.nodes + 2) := by
  refine ⟨⟨.R "R2" "b" "0" 0, ?_⟩, ⟨.D "D1" "x" "y" "nomodel", ?_⟩⟩ <;> decide +kernel

/-- C76: in a circuit built through the API every node an element refers to (terminal,
sense node or device port) is in the node table. -/
theorem C76_nodes_known (c : Ckt α) (hc : BuiltBy c) (e : Elem α) (he : e ∈ c.elems)
    (n : Nat) (hn : n ∈ nodesOf e) :
    ∃ s, intToExt c.nodes n = some s ∧ extToInt c.nodes s = some n := by
  obtain ⟨t, h⟩ := hc.inv
  obtain ⟨⟨s, m⟩, hm, rfl⟩ := List.mem_map.1 (h.elems e he n hn)
  exact ⟨s, (h.inv.intToExt_iff s m).2 hm, (h.inv.extToInt_iff s m).2 hm⟩

/-- C76: a successful call appends exactly one element, whose nodes are exactly the numbers
of the names given in the call. -/
theorem C76_element_connected (c : Ckt α) (hc : BuiltBy c) (o : AddOp α)
    (ho : (add c o).2 = none) :
    ∃ e, (add c o).1.elems = c.elems ++ [e] ∧
      (∀ n ∈ nodesOf e, ∃ s ∈ o.names, extToInt (add c o).1.nodes s = some n) ∧
      (∀ s ∈ o.names, ∃ n ∈ nodesOf e, extToInt (add c o).1.nodes s = some n) := by
  obtain ⟨t, h⟩ := hc.inv
  obtain ⟨t', h', hs, hm, -, hgood⟩ := h.add o
  obtain ⟨e, he, h1, h2⟩ := hgood ho
  refine ⟨e, he, ?_, ?_⟩
  · intro n hn
    obtain ⟨s, hs, hm⟩ := h1 n hn
    exact ⟨s, hs, (h'.inv.extToInt_iff s n).2 hm⟩
  · intro s hs
    obtain ⟨n, hn, hm⟩ := h2 s hs
    exact ⟨n, hn, (h'.inv.extToInt_iff s n).2 hm⟩

/-- C76: which number goes where, for the two-terminal elements and the controlled
sources (polarity is not lost on the way). -/
theorem C76_polarity (c : Ckt α) (hc : BuiltBy c) (id a b x y : String) (v : α)
    (src : Src α) (hv : v ≠ 0) :
    (∃ n1 n2, extToInt (add c (.R id a b v)).1.nodes a = some n1 ∧
      extToInt (add c (.R id a b v)).1.nodes b = some n2 ∧
      (add c (.R id a b v)).1.elems = c.elems ++ [.R id n1 n2 v]) ∧
    (∃ n1 n2, extToInt (add c (.V id a b src)).1.nodes a = some n1 ∧
      extToInt (add c (.V id a b src)).1.nodes b = some n2 ∧
      (add c (.V id a b src)).1.elems = c.elems ++ [.V id n1 n2 src]) ∧
    (∃ n1 n2, extToInt (add c (.I id a b src)).1.nodes a = some n1 ∧
      extToInt (add c (.I id a b src)).1.nodes b = some n2 ∧
      (add c (.I id a b src)).1.elems = c.elems ++ [.I id n1 n2 src]) ∧
    (∃ n1 n2, extToInt (add c (.L id a b v none)).1.nodes a = some n1 ∧
      extToInt (add c (.L id a b v none)).1.nodes b = some n2 ∧
      (add c (.L id a b v none)).1.elems = c.elems ++ [.L id n1 n2 v none []]) ∧
    (∃ n1 n2 s1 s2, extToInt (add c (.E id a b x y v)).1.nodes a = some n1 ∧
      extToInt (add c (.E id a b x y v)).1.nodes b = some n2 ∧
      extToInt (add c (.E id a b x y v)).1.nodes x = some s1 ∧
      extToInt (add c (.E id a b x y v)).1.nodes y = some s2 ∧
      (add c (.E id a b x y v)).1.elems = c.elems ++ [.E id n1 n2 s1 s2 v]) ∧
    (∃ n1 n2 s1 s2, extToInt (add c (.G id a b x y v)).1.nodes a = some n1 ∧
      extToInt (add c (.G id a b x y v)).1.nodes b = some n2 ∧
      extToInt (add c (.G id a b x y v)).1.nodes x = some s1 ∧
      extToInt (add c (.G id a b x y v)).1.nodes y = some s2 ∧
      (add c (.G id a b x y v)).1.elems = c.elems ++ [.G id n1 n2 s1 s2 v]) := by
  obtain ⟨t, h⟩ := hc.inv
  obtain ⟨t1, h1, -, m1, m2, e1, -, -⟩ := h.addNodes2 a b
  obtain ⟨t4, h4, -, k1, k2, k3, k4, e4, -, -⟩ := h.addNodes4 a b x y
  have g1 := (h1.inv.extToInt_iff _ _).2 m1
  have g2 := (h1.inv.extToInt_iff _ _).2 m2
  have q1 := (h4.inv.extToInt_iff _ _).2 k1
  have q2 := (h4.inv.extToInt_iff _ _).2 k2
  have q3 := (h4.inv.extToInt_iff _ _).2 k3
  have q4 := (h4.inv.extToInt_iff _ _).2 k4
  have er : add c (.R id a b v) =
      ((c.addNodes2 a b).1.append (.R id (c.addNodes2 a b).2.1 (c.addNodes2 a b).2.2 v), none) := by
    simp only [add, hv, if_false]
  refine ⟨?_, ?_, ?_, ?_, ?_, ?_⟩
  · rw [er]; exact ⟨_, _, g1, g2, by simp only [Ckt.append, e1]⟩
  · exact ⟨_, _, g1, g2, by simp only [add, Ckt.append, e1]⟩
  · exact ⟨_, _, g1, g2, by simp only [add, Ckt.append, e1]⟩
  · exact ⟨_, _, g1, g2, by simp only [add, Ckt.append, e1]⟩
  · exact ⟨_, _, _, _, q1, q2, q3, q4, by simp only [add, Ckt.append, e4]⟩
  · exact ⟨_, _, _, _, q1, q2, q3, q4, by simp only [add, Ckt.append, e4]⟩

/-- C76: with a reference node the node numbers are rows of the (full) equation system:
exactly the hypothesis the assembly theorems (C06…C12) need. -/
theorem C76_rows_valid (c : Ckt α) (hc : BuiltBy c) (h0 : (extToInt c.nodes "0").isSome)
    (e : Elem α) (he : e ∈ c.elems) :
    (∀ n ∈ nodesOf e, n < nodesNumber c.nodes) ∧ Mna.NodesLt (nodesNumber c.nodes) e := by
  obtain ⟨t, h⟩ := hc.inv
  obtain ⟨z, hz⟩ := Option.isSome_iff_exists.1 h0
  have hz' : "0" ∈ t.map Prod.fst :=
    List.mem_map.2 ⟨_, (h.inv.extToInt_iff _ _).1 hz, rfl⟩
  have hl : nodesNumber c.nodes = t.length := by
    unfold nodesNumber; rw [h.inv.len]; omega
  have key : ∀ n ∈ nodesOf e, n < nodesNumber c.nodes := by
    intro n hn
    have := (h.inv.rng n).1 (h.elems e he n hn)
    rw [if_pos hz'] at this
    rw [hl]; exact this
  refine ⟨key, ?_⟩
  cases e with
  | K _ => trivial
  | E | G => exact ⟨key _ (by simp [nodesOf]), key _ (by simp [nodesOf]),
      key _ (by simp [nodesOf]), key _ (by simp [nodesOf])⟩
  | _ => exact ⟨key _ (by simp [nodesOf]), key _ (by simp [nodesOf])⟩

/-- C76: without a reference node the highest node number is not a row: such circuits
make the assembly index out of range (they are caught by `check_circuit`, C59). -/
theorem C76_needs_reference (c : Ckt α) (hc : BuiltBy c) (h0 : extToInt c.nodes "0" = none)
    (hne : nodesNumber c.nodes ≠ 0) : (intToExt c.nodes (nodesNumber c.nodes)).isSome := by
  obtain ⟨t, h⟩ := hc.inv
  have hl : nodesNumber c.nodes = t.length := by
    unfold nodesNumber; rw [h.inv.len]; omega
  have hz : ¬ "0" ∈ t.map Prod.fst := by
    intro hm
    obtain ⟨⟨s, n⟩, hs, e⟩ := List.mem_map.1 hm
    simp only at e; subst e
    rw [(h.inv.extToInt_iff _ _).2 hs] at h0; cases h0
  have : nodesNumber c.nodes ∈ t.map Prod.snd := by
    rw [h.inv.rng, if_neg hz]; omega
  obtain ⟨⟨s, n⟩, hs, e⟩ := List.mem_map.1 this
  simp only at e
  rw [← e, (h.inv.intToExt_iff _ _).2 hs]; rfl

/-! Examples. -/

/-- a divider with a controlled source, built through the API -/
def exCkt : Ckt ℚ := addAll { models := [("dm", .diode)] }
  [.V "V1" "in" "0" { dc := some 5 }, .R "R1" "in" "out" 1000, .E "E1" "x" "0" "out" "0" 2,
   .R "R2" "x" "0" 50, .D "D1" "out" "0" "dm"]

example : BuiltBy exCkt := ⟨_, _, rfl⟩
example : (extToInt exCkt.nodes "0").isSome ∧ exCkt.elems.length = 5 ∧
    nodesNumber exCkt.nodes = 4 := by decide +kernel
example : (add exCkt (.R "R3" "out" "0" 0)).2 ≠ none := by decide +kernel
example : (add exCkt (.M "M1" "d" "g" "s" "b" "dm")).2 = some .exn := by decide +kernel

end Verif.Build
