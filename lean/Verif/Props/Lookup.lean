import Verif.Model.Build
import Verif.Props.Power
import Verif.Props.Remove
import Verif.Props.Check

/-!
C148: elements are found, and removed, by name.
-/

namespace Verif.Build
open Verif.Circuit

variable {α : Type}

/-- the element at position `i` is the first with this name, in any case -/
def First (circ : List (Elem α)) (name : String) (i : Nat) (e : Elem α) : Prop :=
  circ[i]? = some e ∧ upper e.id = upper name ∧ ∀ j < i, ∀ e', circ[j]? = some e' → upper e'.id ≠ upper name

theorem first_findIdx (circ : List (Elem α)) (name : String) (i : Nat) :
    circ.findIdx? (fun e => decide (lower e.id = lower name)) = some i ↔ ∃ e, First circ name i e := by
  rw [List.findIdx?_eq_some_iff_getElem]
  constructor
  · rintro ⟨hi, h1, h2⟩
    refine ⟨circ[i], List.getElem?_eq_getElem hi, (Results.upper_lower _ _).2 (by simpa using h1), fun j hj e' he' hu => ?_⟩
    obtain ⟨hj', rfl⟩ := List.getElem?_eq_some_iff.1 he'
    exact h2 j hj (by simpa using (Results.upper_lower _ _).1 hu)
  · rintro ⟨e, h1, h2, h3⟩
    obtain ⟨hi, rfl⟩ := List.getElem?_eq_some_iff.1 h1
    refine ⟨hi, by simpa using (Results.upper_lower _ _).1 h2, fun j hj hu => ?_⟩
    exact h3 j hj _ (List.getElem?_eq_getElem (by omega)) ((Results.upper_lower _ _).2 (by simpa using hu))

/-- C148: `get_elem_by_name` returns the first element with this name, in any case. -/
theorem C148_found (circ : List (Elem α)) (name : String) (e : Elem α) :
    getElemByName circ name = .ok e ↔ ∃ i, First circ name i e := by
  unfold getElemByName
  rw [List.find?_eq_bind_findIdx?_getElem?]
  constructor
  · intro h
    cases hf : circ.findIdx? (fun e => decide (lower e.id = lower name)) with
    | none => rw [hf] at h; simp at h
    | some i =>
      obtain ⟨e', he'⟩ := (first_findIdx circ name i).1 hf
      rw [hf] at h
      simp only [Option.bind_some, he'.1, Except.ok.injEq] at h
      exact ⟨i, h ▸ he'⟩
  · rintro ⟨i, h⟩
    rw [(first_findIdx circ name i).2 ⟨e, h⟩]
    simp only [Option.bind_some, h.1]

/-- C148: it fails, with `ValueError`, exactly if there is none. -/
theorem C148_missing (circ : List (Elem α)) (name : String) (x : Err) :
    getElemByName circ name = .error x ↔ x = .value ∧ ∀ e ∈ circ, upper e.id ≠ upper name := by
  unfold getElemByName
  constructor
  · intro h
    cases hf : circ.find? (fun e => decide (lower e.id = lower name)) with
    | some e => rw [hf] at h; simp at h
    | none =>
      rw [hf] at h
      refine ⟨by simpa using h.symm, fun e he hu => ?_⟩
      exact List.find?_eq_none.1 hf e he (by simpa using (Results.upper_lower _ _).1 hu)
  · rintro ⟨rfl, h⟩
    rw [List.find?_eq_none.2 fun e he hu => h e he ((Results.upper_lower _ _).2 (by simpa using hu))]

/-- C148: a new element is found by its name if no other has the same. -/
theorem C148_added (circ : List (Elem α)) (e : Elem α) (h : ∀ e' ∈ circ, upper e'.id ≠ upper e.id) :
    getElemByName (circ ++ [e]) e.id = .ok e := by
  refine (C148_found _ _ _).2 ⟨circ.length, by simp, rfl, fun j hj e' he' => h e' ?_⟩
  rw [List.getElem?_append_left hj] at he'
  exact List.mem_of_getElem? he'

/-- C148: if names are unique in any case, every element is found by its name, however written. -/
theorem C148_unique (circ : List (Elem α)) (h : (circ.map fun e => upper e.id).Nodup) (e : Elem α) (he : e ∈ circ)
    (name : String) (hn : upper name = upper e.id) : getElemByName circ name = .ok e := by
  obtain ⟨i, hi⟩ := List.getElem?_of_mem he
  refine (C148_found _ _ _).2 ⟨i, hi, hn.symm, fun j hj e' he' hu => ?_⟩
  obtain ⟨hi', rfl⟩ := List.getElem?_eq_some_iff.1 hi
  obtain ⟨hj', rfl⟩ := List.getElem?_eq_some_iff.1 he'
  have := (List.Nodup.getElem_inj_iff h (i := i) (j := j) (hi := by simpa using hi') (hj := by simpa using hj')).1 (by
    simp only [List.getElem_map]; rw [hu, hn])
  omega

/-- C148: `remove_elem` with a name takes out the element that `get_elem_by_name` returns, and no other. -/
theorem C148_removed (c : Ckt α) (name : String) (i : Nat) (e : Elem α) (h : First c.elems name i e) :
    (removeByName c name).1.elems = c.elems.eraseIdx i := by
  unfold removeByName
  rw [(first_findIdx c.elems name i).2 ⟨e, h⟩]
  simp only [removeAt, h.1]
  cases dropList e (c.elems.eraseIdx i) (candidates e) <;> rfl

/-- C148: without such an element the circuit is left as it is and `ValueError` is raised. -/
theorem C148_not_removed (c : Ckt α) (name : String) (h : ∀ e ∈ c.elems, upper e.id ≠ upper name) :
    removeByName c name = (c, some .value) := by
  unfold removeByName
  rw [List.findIdx?_eq_none_iff.2 fun e he => by
    simpa using fun hl => h e he ((Results.upper_lower _ _).2 hl)]

/-- C148: if names are unique in any case, the name is free after that and all other elements are found as before. -/
theorem C148_after (c : Ckt α) (h : (c.elems.map fun e => upper e.id).Nodup) (name : String) :
    getElemByName (removeByName c name).1.elems name = .error .value ∧
    ∀ e ∈ c.elems, upper e.id ≠ upper name → getElemByName (removeByName c name).1.elems e.id = .ok e := by
  by_cases hn : ∀ e ∈ c.elems, upper e.id ≠ upper name
  · rw [C148_not_removed c name hn]
    exact ⟨(C148_missing _ _ _).2 ⟨rfl, hn⟩, fun e he _ => C148_unique _ h e he _ rfl⟩
  · push Not at hn
    obtain ⟨e0, he0, hu0⟩ := hn
    obtain ⟨i, hi⟩ := (C148_found _ _ _).1 (C148_unique _ h e0 he0 name hu0.symm)
    rw [C148_removed c name i e0 hi]
    have hsub : (c.elems.eraseIdx i).Sublist c.elems := List.eraseIdx_sublist ..
    have hnd : ((c.elems.eraseIdx i).map fun e => upper e.id).Nodup := h.sublist (hsub.map _)
    constructor
    · refine (C148_missing _ _ _).2 ⟨rfl, fun e he hu => ?_⟩
      obtain ⟨j, hj, hne, hje⟩ := List.mem_eraseIdx_iff_getElem.1 he
      obtain ⟨hi', hie⟩ := List.getElem?_eq_some_iff.1 hi.1
      have := (List.Nodup.getElem_inj_iff h (i := i) (j := j) (hi := by simpa using hi') (hj := by simpa using hj)).1 (by
        simp only [List.getElem_map]; rw [hje, hie, hu, hi.2.1])
      omega
    · intro e he hne
      refine C148_unique _ hnd e ?_ _ rfl
      obtain ⟨j, hj, rfl⟩ := List.mem_iff_getElem.1 he
      refine List.mem_eraseIdx_iff_getElem.2 ⟨j, hj, fun hji => ?_, rfl⟩
      obtain ⟨hi', hie⟩ := List.getElem?_eq_some_iff.1 hi.1
      subst hji
      exact hne (by rw [hie]; exact hi.2.1)

/-! ### Examples -/

def threeR : List (Elem ℚ) := [.R "R1" 1 0 1, .C "c1" 1 0 2 none, .R "R2" 1 0 3]

example : (threeR.map fun e => upper e.id).Nodup ∧ (∃ i e, First threeR "C1" i e) ∧
    (∀ e ∈ threeR, upper e.id ≠ upper "R3") := by
  refine ⟨by decide +kernel, ⟨1, .C "c1" 1 0 2 none, rfl, by decide +kernel, ?_⟩, by decide +kernel⟩
  intro j hj e' he'
  obtain rfl : j = 0 := by omega
  simp only [threeR, List.getElem?_cons_zero, Option.some.injEq] at he'
  subst he'
  decide +kernel

example : getElemByName threeR "C1" = .ok (.C "c1" 1 0 2 none) := rfl

/-- C148, disagreement: the check for duplicate names (`has_duplicate_elem`) distinguishes case, the look-up
does not: this circuit has no duplicates, but its second element is not what its name finds. -/
theorem C148_case_refuted : ∃ circ : List (Elem ℚ), hasDuplicateElem circ = false ∧
    ∃ e ∈ circ, ∃ e' ∈ circ, getElemByName circ e.id = .ok e' ∧ e'.id ≠ e.id :=
  ⟨[.R "R1" 1 0 1, .R "r1" 1 0 2], by decide +kernel, .R "r1" 1 0 2, by simp, .R "R1" 1 0 1, by simp, rfl,
    by decide +kernel⟩

end Verif.Build
