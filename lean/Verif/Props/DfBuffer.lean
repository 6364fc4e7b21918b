import Verif.Model.DfBuffer
import Mathlib.Tactic.Common

/-!
Property C25 (history buffer).
-/

namespace Verif.DfBuffer

variable {α : Type}

theorem addAll_spec (ts : List (List α)) (b : Buf α) (hb : b.items.length ≤ b.length) :
    (addAll b ts).items =
      (((ts.filter (fun t => t.length == b.width)).reverse) ++ b.items).take b.length ∧
    (addAll b ts).length = b.length ∧ (addAll b ts).width = b.width := by
  induction ts generalizing b with
  | nil => simp [addAll, List.take_of_length_le hb]
  | cons t ts ih =>
    simp only [addAll]
    by_cases ht : t.length = b.width
    · have e : (add b t).getD b = { b with items := (t :: b.items).take b.length } := by
        simp only [add, ht, not_true_eq_false, if_false, Option.getD_some]
        congr 1
        split
        · rfl
        · rename_i h
          exact (List.take_of_length_le (by omega)).symm
      rw [e]
      obtain ⟨h1, h2, h3⟩ := ih { b with items := (t :: b.items).take b.length } (by simp; omega)
      refine ⟨?_, h2, h3⟩
      rw [h1]
      simp only [ht, beq_self_eq_true, List.filter_cons_of_pos, List.reverse_cons, List.append_assoc,
        List.singleton_append]
      rw [List.take_append, List.take_take, List.take_append]
      congr 2
      omega
    · have e : (add b t).getD b = b := by simp [add, ht]
      rw [e]
      have := ih b hb
      rw [List.filter_cons_of_neg (by simpa using ht)]
      exact this

/-- C25: after any sequence of additions the buffer holds the last `min(n, added)` accepted
points, newest first. -/
theorem C25_contents (n w : Nat) (ts : List (List α)) :
    getDf (addAll (init n w) ts) = ((ts.filter (fun t => t.length == w)).reverse).take n := by
  rw [getDf, (addAll_spec ts (init n w) (by simp [init])).1]
  simp [init]

/-- C25: it is full iff at least `n` points were accepted. -/
theorem C25_ready_iff (n w : Nat) (ts : List (List α)) :
    isReady (addAll (init n w) ts) = true ↔ n ≤ (ts.filter (fun t => t.length == w)).length := by
  obtain ⟨h1, h2, -⟩ := addAll_spec ts (init n w) (by simp [init])
  unfold isReady
  rw [h1, h2]
  simp [init]
  omega

/-- C25: the `i`-th entry is the `i`-th newest accepted point. -/
theorem C25_entry (n w : Nat) (ts : List (List α)) (h : ∀ t ∈ ts, t.length = w) (i : Nat)
    (hi : i < n) (hi' : i < ts.length) :
    (getDf (addAll (init n w) ts))[i]? = ts[ts.length - 1 - i]? := by
  rw [C25_contents, List.filter_eq_self.2 (by simpa using h), List.getElem?_take_of_lt hi,
    List.getElem?_reverse hi']

/-- C25: a point of the wrong size is refused. -/
theorem C25_refused (b : Buf α) (t : List α) : add b t = none ↔ t.length ≠ b.width := by
  unfold add
  split
  · rename_i h; simp [h]
  · rename_i h
    simp only [reduceCtorEq, ne_eq, false_iff, not_not]
    exact not_not.1 h

example : getDf (addAll (init 2 1) [[1], [2, 2], [3], [4]]) = [[4], [3]] := by decide +kernel
example : isReady (addAll (init 2 1) [[1], [2, 2]]) = false := by decide +kernel

end Verif.DfBuffer
