import Verif.Model.Headers
import Verif.Props.Csv
import Mathlib.Tactic.SplitIfs
import Mathlib.Tactic.Tauto

/-!
C225: `write_headers` writes the line that `get_headers` reads.
-/

namespace Verif.Headers
open Verif.Csv

theorem loop_eq : ∀ (acc : Word) (hs : List Word), hs ≠ [] → loop true acc hs = (acc ++ join hs ++ ['\n'], none)
  | _, [], h => absurd rfl h
  | acc, [w], _ => by simp [loop, join]
  | acc, w :: v :: ws, _ => by
    rw [loop, if_neg (by simp), if_neg (by simp), loop_eq _ (v :: ws) (by simp), join]
    simp

theorem marked_name {headers : List Word} (hne : headers ≠ []) (hh : ∀ w ∈ headers, w ≠ [] ∧ '#' ∉ w) :
    ∃ hs, marked headers = .ok hs ∧ hs ≠ [] ∧ join hs = '#' :: join headers := by
  match headers, hne with
  | [] :: _, _ => exact absurd rfl (hh [] (by simp)).1
  | [c :: w], _ =>
    have : c ≠ '#' := fun e => (hh (c :: w) (by simp)).2 (by simp [e])
    exact ⟨_, rfl, by simp [this], by simp [this, join]⟩
  | (c :: w) :: v :: ws, _ =>
    have : c ≠ '#' := fun e => (hh (c :: w) (by simp)).2 (by simp [e])
    exact ⟨_, rfl, by simp [this], by simp [this, join]⟩

/-- C225 (partial: only for a standard output that takes text): the names are written as one line, after what had been written before;
it is the line that `write_csv` writes for these names, and reading it gives the names. -/
theorem C225_stdout_partial {K : Type} (w : World) {name : Word} (hn : name = "stdout".toList ∨ name = ['-']) {headers : List Word}
    (hne : headers ≠ []) (hh : ∀ x ∈ headers, Name x) (hs : ∀ x ∈ headers, '#' ∉ x) (fmt : K → Word) (old : List Word) :
    ∃ line, w.writeHeaders false name headers = ({ w with out := w.out ++ line ++ ['\n'] }, none) ∧
      writeCsv fmt old [] headers false = [line] ∧ getHeaders [line] = .ok headers := by
  obtain ⟨l, h1, h2, h3⟩ := marked_name hne fun x hx => ⟨(hh x hx).1, hs x hx⟩
  have hw : writeCsv fmt old [] headers false = ['#' :: join headers] := by rw [writeCsv_eq fmt old [] headers hne hh]; rfl
  refine ⟨'#' :: join headers, ?_, hw, ?_⟩
  · unfold World.writeHeaders
    rw [if_pos hn, h1]
    simp only [Bool.not_false]
    rw [loop_eq _ _ h2, h3]
  · rw [← hw]
    exact getHeaders_write fmt old [] headers hne hh

/-- C225 refuted: with a file `write_headers` never succeeds: files are opened for bytes and text is written. Whatever the file held is
lost: it is empty afterwards, and its header cannot be read. Other files and the standard output are left alone. -/
theorem C225_file_refuted (buffer : Bool) (w : World) {name : Word} (hn : name ≠ "stdout".toList ∧ name ≠ ['-']) (headers : List Word) :
    (w.writeHeaders buffer name headers).2 ≠ none ∧ (w.writeHeaders buffer name headers).1.files name = some [] ∧
      (∀ n, n ≠ name → (w.writeHeaders buffer name headers).1.files n = w.files n) ∧
      (w.writeHeaders buffer name headers).1.out = w.out ∧
      ((∃ x ∈ headers.head?, x ≠ []) → (w.writeHeaders buffer name headers).2 = some .type) := by
  have h0 : ¬ (name = "stdout".toList ∨ name = ['-']) := by tauto
  unfold World.writeHeaders
  rw [if_neg h0]
  match headers with
  | [] => simp +contextual [marked]
  | [] :: _ => simp +contextual [marked]
  | (c :: x) :: ws =>
    by_cases hc : c = '#' <;> simp +contextual [marked, hc, loop]

/-- C225 refuted: nor with the standard output of Python 3, which is used through its stream of bytes; nothing is written. -/
theorem C225_buffer_refuted (w : World) {name : Word} (hn : name = "stdout".toList ∨ name = ['-']) (headers : List Word) :
    (w.writeHeaders true name headers).1 = w ∧ (w.writeHeaders true name headers).2 ≠ none := by
  unfold World.writeHeaders
  rw [if_pos hn]
  match headers with
  | [] => simp [marked]
  | [] :: _ => simp [marked]
  | (c :: x) :: ws => by_cases hc : c = '#' <;> simp [marked, hc, loop]

/-- C225: an empty list of names and an empty first name are refused with `IndexError`, after the file was emptied. -/
theorem C225_empty (buffer : Bool) (w : World) (name : Word) (headers : List Word) :
    (w.writeHeaders buffer name headers).2 = some .index ↔ ∀ x ∈ headers.head?, x = [] := by
  have hl : ∀ (t : Bool) (acc : Word) (l : List Word), (loop t acc l).2 ≠ some .index := by
    intro t acc l
    induction l generalizing acc with
    | nil => simp [loop]
    | cons x xs ih =>
      unfold loop
      split_ifs
      · simp
      · simp
      · exact ih _
  unfold World.writeHeaders
  match headers with
  | [] => split_ifs <;> simp [marked]
  | [] :: _ => split_ifs <;> simp [marked]
  | (c :: x) :: ws => split_ifs <;> simp [marked, hl]

/-! ### Examples -/

def exW : World := { files := fun n => if n = "a.tran".toList then some "#T\tVN1\n0\t1\n".toList else none, out := "x\n".toList }

example : (exW.writeHeaders false ['-'] ["T".toList, "VN1".toList]).1.out = "x\n#T\tVN1\n".toList ∧
    (∀ x ∈ ["T".toList, "VN1".toList], '#' ∉ x) := by decide +kernel

/-- a header that is marked already is not marked again -/
example : (exW.writeHeaders false ['-'] ["#T".toList, "VN1".toList]).1.out = "x\n#T\tVN1\n".toList := by decide +kernel

/-- results are lost -/
example : exW.files "a.tran".toList ≠ none ∧ (exW.writeHeaders true "a.tran".toList ["T".toList, "VN1".toList]).1.files "a.tran".toList = some [] ∧
    (exW.writeHeaders true "a.tran".toList ["T".toList, "VN1".toList]).2 = some .type := by decide +kernel

example : ∀ x ∈ ["T".toList, "VN1".toList], Name x := by
  unfold Name; decide +kernel

end Verif.Headers
