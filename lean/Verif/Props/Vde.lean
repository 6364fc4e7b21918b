import Verif.Proof.Circuit
import Mathlib.Data.Rat.Defs
import Mathlib.Data.List.Nodup

/-!
Property C05: branch-current indices and part ids.

Specification side: `vdes circ` is the sub-list of voltage-defined elements, so the
branch index of an element is its position in that list.
-/

namespace Verif.Circuit
variable {α : Type}

/-- Part ids are unique up to letter case among voltage-defined elements. -/
abbrev UniqueVde (circ : List (Elem α)) : Prop :=
  ((vdes circ).map (fun e => upper e.id)).Nodup

/-- C05: with ids unique up to case, the index found for an element's id, in whatever
letter case, is the number of voltage-defined elements before it. -/
theorem C05_index_counts_preceding (before after : List (Elem α)) (e : Elem α) (name : String)
    (hv : e.vde = true) (hname : upper name = upper e.id)
    (hu : UniqueVde (before ++ e :: after)) :
    findVdeIndex (before ++ e :: after) name = .ok (vdes before).length := by
  unfold findVdeIndex
  rw [hname, findVdeIndexAux_ok]
  have hl : vdes (before ++ e :: after) = vdes before ++ e :: vdes after := by
    rw [vdes_append, vdes_cons, if_pos hv]
  refine ⟨(vdes before).length, by omega, ⟨e, ?_, rfl⟩, ?_⟩
  · rw [hl]; simp
  · intro j' e' hj he
    rw [hl, List.getElem?_append_left hj] at he
    have hm : e' ∈ vdes before := List.mem_of_getElem? he
    unfold UniqueVde at hu
    rw [hl, List.map_append, List.map_cons, List.nodup_append] at hu
    exact hu.2.2 _ (List.mem_map.2 ⟨e', hm, rfl⟩) _ (List.mem_cons_self ..)

/-- C05: looking an id up and then looking the index up returns an element with that id
(and it is the element at that position of the branch equations). -/
theorem C05_round_trip (circ : List (Elem α)) (nv k : Nat) (name : String)
    (h : findVdeIndex circ name = .ok k) :
    ∃ e ∈ circ, e.vde = true ∧ upper e.id = upper name ∧
      findVde circ nv ((nv : Int) - 1 + k) = .ok e := by
  unfold findVdeIndex at h
  rw [findVdeIndexAux_ok] at h
  obtain ⟨j, hj, ⟨e, he, hid⟩, -⟩ := h
  have hm : e ∈ vdes circ := List.mem_of_getElem? he
  have hm' := List.mem_filter.1 hm
  refine ⟨e, hm'.1, hm'.2, hid, ?_⟩
  unfold findVde
  have : ((nv : Int) - 1 + k - nv + 1) = ((0 : Nat) : Int) + j := by omega
  have h0 : (0 : Int) = ((0 : Nat) : Int) := rfl
  rw [h0, findVdeAux_ok]
  exact ⟨j, by omega, he⟩

/-- C05: the other direction of the round trip. -/
theorem C05_round_trip' (circ : List (Elem α)) (nv : Nat) (i : Int) (e : Elem α)
    (hu : UniqueVde circ) (h : findVde circ nv i = .ok e) :
    ∃ k : Nat, findVdeIndex circ e.id = .ok k ∧ i = nv - 1 + k := by
  unfold findVde at h
  have h0 : (0 : Int) = ((0 : Nat) : Int) := rfl
  rw [h0, findVdeAux_ok] at h
  obtain ⟨j, hj, he⟩ := h
  refine ⟨j, ?_, by omega⟩
  unfold findVdeIndex
  rw [findVdeIndexAux_ok]
  refine ⟨j, by omega, ⟨e, he, rfl⟩, ?_⟩
  intro j' e' hlt he' heq
  unfold UniqueVde at hu
  have h1 : ((vdes circ).map (fun e => upper e.id))[j]? = some (upper e.id) := by
    rw [List.getElem?_map, he]; rfl
  have h2 : ((vdes circ).map (fun e => upper e.id))[j']? = some (upper e.id) := by
    rw [List.getElem?_map, he', Option.map_some, heq]
  obtain ⟨hj1, e1⟩ := List.getElem?_eq_some_iff.1 h1
  obtain ⟨hj2, e2⟩ := List.getElem?_eq_some_iff.1 h2
  have := (List.Nodup.getElem_inj_iff hu).1 (e1.trans e2.symm)
  omega

/-- C05: the look-up by id fails, with `ValueError`, exactly for ids that name no
voltage-defined element. -/
theorem C05_index_error (circ : List (Elem α)) (name : String) (x : Err) :
    findVdeIndex circ name = .error x ↔
      x = .value ∧ ¬ ∃ e ∈ circ, e.vde = true ∧ upper e.id = upper name := by
  unfold findVdeIndex
  rw [findVdeIndexAux_error]
  simp only [vdes, List.mem_filter]
  constructor
  · rintro ⟨rfl, h⟩; exact ⟨rfl, fun ⟨e, a, b, c⟩ => h e ⟨a, b⟩ c⟩
  · rintro ⟨rfl, h⟩; exact ⟨rfl, fun e ⟨a, b⟩ c => h ⟨e, a, b, c⟩⟩

/-- C05: the look-up by index fails, with `IndexError`, exactly outside the range of
branch unknowns `nv-1 .. nv-1+(number of voltage-defined elements)-1`. -/
theorem C05_vde_error (circ : List (Elem α)) (nv : Nat) (i : Int) (x : Err) :
    findVde circ nv i = .error x ↔
      x = .index ∧ ¬ ((nv : Int) - 1 ≤ i ∧ i < nv - 1 + (circ.countP Elem.vde : Nat)) := by
  unfold findVde
  have h0 : (0 : Int) = ((0 : Nat) : Int) := rfl
  rw [h0, findVdeAux_error, vdes, List.countP_eq_length_filter]
  constructor
  · rintro ⟨rfl, h⟩; exact ⟨rfl, by omega⟩
  · rintro ⟨rfl, h⟩; exact ⟨rfl, by omega⟩

/-- a circuit mixing kinds: two voltage-defined elements separated by others -/
def demoVde : List (Elem Rat) :=
  [.R "R1" 1 0 5, .V "V1" 1 0 { dc := some 1 }, .C "C1" 1 2 1 none, .L "Lx" 2 0 1 none []]

example : UniqueVde demoVde := by decide +kernel
example : (findVdeIndex demoVde "lX").toOption = some 1 := by decide +kernel
example : ((findVde demoVde 3 3).toOption.map Elem.id) = some "Lx" := by decide +kernel
example : ((findVde demoVde 3 1).toOption.map Elem.id) = none := by decide +kernel

/-- C05: without uniqueness up to case the round trip fails, although
`has_duplicate_elem` (case sensitive) accepts the circuit. -/
theorem C05_case_duplicates_refuted :
    let circ : List (Elem Rat) := [.V "V1" 1 0 { dc := some 1 }, .V "v1" 2 0 { dc := some 2 }]
    hasDuplicateElem circ = false ∧ (findVdeIndex circ "v1").toOption = some 0 ∧
      (findVde circ 3 3).toOption.map Elem.id = some "v1" := by decide +kernel

end Verif.Circuit
