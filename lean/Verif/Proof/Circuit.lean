import Verif.Model.Circuit
import Mathlib.Tactic.Common
import Mathlib.Tactic.Push

namespace Verif.Circuit
variable {α : Type}

/-- The voltage-defined elements in circuit order. -/
def vdes (circ : List (Elem α)) : List (Elem α) := circ.filter Elem.vde

theorem vdes_nil : vdes ([] : List (Elem α)) = [] := rfl

theorem vdes_cons (e : Elem α) (r : List (Elem α)) :
    vdes (e :: r) = if e.vde then e :: vdes r else vdes r := by
  unfold vdes; rw [List.filter_cons]

theorem vdes_append (a b : List (Elem α)) : vdes (a ++ b) = vdes a ++ vdes b := by
  simp [vdes]

theorem findVdeIndexAux_ok {key : List Char} {l : List (Elem α)} {k i : Nat} :
    findVdeIndexAux key l k = .ok i ↔
      ∃ j, i = k + j ∧ (∃ e, (vdes l)[j]? = some e ∧ upper e.id = key) ∧
        ∀ j' e', j' < j → (vdes l)[j']? = some e' → upper e'.id ≠ key := by
  induction l generalizing k with
  | nil => simp [findVdeIndexAux, vdes_nil]
  | cons e r ih =>
    simp only [findVdeIndexAux, vdes_cons]
    by_cases hv : e.vde = true
    · simp only [hv, if_true]
      by_cases hk : upper e.id = key
      · simp only [hk, if_true, Except.ok.injEq]
        constructor
        · rintro rfl
          exact ⟨0, rfl, ⟨e, rfl, hk⟩, by intro j' e' h; omega⟩
        · rintro ⟨j, rfl, -, hj⟩
          cases j with
          | zero => rfl
          | succ j => exact absurd hk (hj 0 e (by omega) rfl)
      · simp only [hk, if_false]
        rw [ih]
        constructor
        · rintro ⟨j, rfl, he, hj⟩
          refine ⟨j + 1, by omega, by simpa using he, ?_⟩
          intro j' e' hlt
          cases j' with
          | zero => rintro h; simp at h; subst h; exact hk
          | succ j' => intro h; exact hj j' e' (by omega) (by simpa using h)
        · rintro ⟨j, rfl, he, hj⟩
          cases j with
          | zero =>
            obtain ⟨e', h1, h2⟩ := he
            simp at h1; subst h1; exact absurd h2 hk
          | succ j =>
            refine ⟨j, by omega, by simpa using he, ?_⟩
            intro j' e' hlt h
            exact hj (j' + 1) e' (by omega) (by simpa using h)
    · simp only [hv]
      exact ih

theorem findVdeIndexAux_error {key : List Char} {l : List (Elem α)} {k : Nat} {x : Err} :
    findVdeIndexAux key l k = .error x ↔
      x = .value ∧ ∀ e ∈ vdes l, upper e.id ≠ key := by
  induction l generalizing k with
  | nil => simp [findVdeIndexAux, vdes_nil, eq_comm]
  | cons e r ih =>
    simp only [findVdeIndexAux, vdes_cons]
    by_cases hv : e.vde = true
    · simp only [hv, if_true]
      by_cases hk : upper e.id = key
      · simp [hk]
      · simp [hk, ih]
    · simp only [hv]
      exact ih

theorem findVdeAux_ok {l : List (Elem α)} {ni : Nat} {index : Int} {e : Elem α} :
    findVdeAux index l ni = .ok e ↔ ∃ j : Nat, index = ni + j ∧ (vdes l)[j]? = some e := by
  induction l generalizing ni with
  | nil => simp [findVdeAux, vdes_nil]
  | cons a r ih =>
    simp only [findVdeAux, vdes_cons]
    by_cases hv : a.vde = true
    · simp only [hv, if_true]
      by_cases hk : index = ni
      · simp only [hk, if_true, Except.ok.injEq]
        constructor
        · rintro rfl; exact ⟨0, by omega, rfl⟩
        · rintro ⟨j, h, he⟩
          have : j = 0 := by omega
          subst this; simpa using he
      · simp only [hk, if_false]
        have := ih (ni := ni + 1)
        push_cast at this
        rw [this]
        constructor
        · rintro ⟨j, rfl, h⟩; exact ⟨j + 1, by omega, by simpa using h⟩
        · rintro ⟨j, hj, h⟩
          cases j with
          | zero => exact absurd (by omega) hk
          | succ j => exact ⟨j, by omega, by simpa using h⟩
    · simp only [hv]; exact ih

theorem findVdeAux_error {l : List (Elem α)} {ni : Nat} {index : Int} {x : Err} :
    findVdeAux index l ni = .error x ↔
      x = .index ∧ ¬ (ni ≤ index ∧ index < ni + (vdes l).length) := by
  induction l generalizing ni with
  | nil => simp [findVdeAux, vdes_nil, eq_comm]
  | cons a r ih =>
    simp only [findVdeAux, vdes_cons]
    by_cases hv : a.vde = true
    · simp only [hv, if_true]
      by_cases hk : index = ni
      · simp [hk]; intro _; omega
      · simp only [hk, if_false]
        have := ih (ni := ni + 1)
        push_cast at this
        rw [this]
        simp only [List.length_cons]
        push_cast
        constructor
        · rintro ⟨rfl, h⟩; exact ⟨rfl, by omega⟩
        · rintro ⟨rfl, h⟩; exact ⟨rfl, by omega⟩
    · simp only [hv]; exact ih

end Verif.Circuit
