import Verif.Model.Streams
import Verif.Props.Csv

/-!
# C214: results on the standard output
-/

namespace Verif.Streams
open Verif.Csv

variable {K : Type}

/-- the lines expected of a set of results: the names, then one line for each sample -/
def table (fmt : K → Word) (headers : List Word) (samples : List (List K)) : List Word :=
  ('#' :: join headers) :: samples.map fun r => join (r.map fmt)

theorem write_header (fmt : K → Word) (old : List Word) (rows : List (List K)) (headers : List Word) (h : join headers ≠ []) :
    writeCsv fmt old rows headers false = table fmt headers rows := by
  simp [writeCsv, table, h]

theorem write_more (fmt : K → Word) (old : List Word) (rows : List (List K)) (headers : List Word) :
    writeCsv fmt old rows headers true = old ++ rows.map fun r => join (r.map fmt) := by
  simp [writeCsv]

theorem add_std (fmt : K → Word) (headers : List Word) (chunks : List (List (List K))) : ∀ w : World, w.isOpen = true →
    w.add fmt "stdout".toList headers true chunks =
      ({ w with out := w.out ++ chunks.flatten.map fun r => join (r.map fmt) }, none) := by
  induction chunks with
  | nil =>
    intro w _
    simp [World.add]
  | cons rows rest ih =>
    intro w h
    rw [World.add, World.write, if_pos (by simp [isStd]), if_pos h, World.closeStd, if_pos rfl]
    simp only
    rw [ih _ (by exact h), write_more]
    simp

/-- C214: the results of an analysis that writes to `stdout` appear there, with one line of names and in order, however many
pieces they are written in; nothing else changes, and the standard output stays open. -/
theorem C214_stdout (fmt : K → Word) (headers : List Word) (h0 : join headers ≠ []) (rows : List (List K))
    (chunks : List (List (List K))) (w : World) (h : w.isOpen = true) :
    w.add fmt "stdout".toList headers false (rows :: chunks) =
      ({ w with out := w.out ++ table fmt headers (rows ++ chunks.flatten) }, none) := by
  rw [World.add, World.write, if_pos (by simp [isStd]), if_pos h, World.closeStd, if_pos rfl]
  simp only
  rw [add_std fmt headers chunks _ (by exact h), write_header fmt _ _ _ h0]
  simp [table]

/-- C214: in the same way a file gets them, and the standard output and other files are left alone. -/
theorem C214_file (fmt : K → Word) (name : Word) (hn : isStd name = false) (headers : List Word) (h0 : join headers ≠ [])
    (rows : List (List K)) (chunks : List (List (List K))) (w : World) :
    ∃ w', w.add fmt name headers false (rows :: chunks) = (w', none) ∧ w'.out = w.out ∧ w'.isOpen = w.isOpen ∧
      w'.files name = some (table fmt headers (rows ++ chunks.flatten)) ∧ ∀ n, n ≠ name → w'.files n = w.files n := by
  have more : ∀ (chunks : List (List (List K))) (w : World) (l : List Word), w.files name = some l →
      ∃ w', w.add fmt name headers true chunks = (w', none) ∧ w'.out = w.out ∧ w'.isOpen = w.isOpen ∧
        w'.files name = some (l ++ chunks.flatten.map fun r => join (r.map fmt)) ∧ ∀ n, n ≠ name → w'.files n = w.files n := by
    intro chunks
    induction chunks with
    | nil =>
      intro w l hl
      exact ⟨w, rfl, rfl, rfl, by simp [hl], fun _ _ => rfl⟩
    | cons rows rest ih =>
      intro w l hl
      rw [World.add, World.write, if_neg (by simp [hn])]
      simp only [hl, Option.getD_some]
      obtain ⟨w', h1, h2, h3, h4, h5⟩ := ih { w with files := fun n => if n = name then some (writeCsv fmt l rows headers true) else w.files n }
        (writeCsv fmt l rows headers true) (by simp)
      refine ⟨w', h1, h2, h3, ?_, fun n hn' => ?_⟩
      · rw [h4, write_more]
        simp
      · rw [h5 n hn']
        simp [hn']
  rw [World.add, World.write, if_neg (by simp [hn])]
  simp only
  obtain ⟨w', h1, h2, h3, h4, h5⟩ := more chunks
    { w with files := fun n => if n = name then some (writeCsv fmt ((w.files name).getD []) rows headers false) else w.files n }
    (table fmt headers rows)
    (by simp [write_header fmt _ _ _ h0])
  refine ⟨w', h1, h2, h3, ?_, fun n hn' => ?_⟩
  · rw [h4]
    simp [table]
  · rw [h5 n hn']
    simp [hn']

/-- C214: with `-`, the other name of the standard output, results written in one piece appear there as well. -/
theorem C214_dash_partial (fmt : K → Word) (headers : List Word) (h0 : join headers ≠ []) (rows : List (List K)) (w : World)
    (h : w.isOpen = true) :
    w.add fmt ['-'] headers false [rows] = ({ w with out := w.out ++ table fmt headers rows, isOpen := false }, none) := by
  rw [World.add, World.write, if_pos (by simp [isStd]), if_pos h, World.closeStd, if_neg (by decide)]
  simp only
  rw [World.add,
    write_header fmt _ _ _ h0]

/-- C214 refuted: but the standard output is closed after the first piece. The second one, and whatever is printed afterwards, raises
`ValueError`. -/
theorem C214_dash_refuted (fmt : K → Word) (headers : List Word) (h0 : join headers ≠ []) (rows more : List (List K))
    (rest : List (List (List K))) (w : World) (h : w.isOpen = true) :
    ∃ w', w.add fmt ['-'] headers false (rows :: more :: rest) = (w', some .value) ∧ w'.out = w.out ++ table fmt headers rows ∧
      ∀ line, w'.print line = (w', some .value) := by
  refine ⟨{ w with out := w.out ++ table fmt headers rows, isOpen := false }, ?_, rfl, fun line => by simp [World.print]⟩
  rw [World.add, World.write, if_pos (by simp [isStd]), if_pos h, World.closeStd, if_neg (by decide)]
  simp only
  rw [World.add, World.write, if_pos (by simp [isStd]), if_neg (by simp), write_header fmt _ _ _ h0]

/-- C214: results in a file can be read from the result set, -/
theorem C214_read (fmt : K → Word) (parse : Word → Option K) (name : Word) (hn : isStd name = false) (headers : List Word)
    (h0 : join headers ≠ []) (hh : ∀ w ∈ headers, Name w) (hd : (headers.map lowerW).Nodup) (rows : List (List K))
    (chunks : List (List (List K))) (hr : ∀ r ∈ rows ++ chunks.flatten, r.length = headers.length)
    (hx : ∀ r ∈ rows ++ chunks.flatten, ∀ x ∈ r, Reads fmt parse x) (w : World) (i : Nat) (hi : i < headers.length) (var : Word)
    (hv : lowerW var = lowerW headers[i]) :
    ∃ w', w.add fmt name headers false (rows :: chunks) = (w', none) ∧
      w'.get parse name var = (w', .ok ((rows ++ chunks.flatten).filterMap fun r => r[i]?)) := by
  obtain ⟨w', h1, -, -, h4, -⟩ := C214_file fmt name hn headers h0 rows chunks w
  refine ⟨w', h1, ?_⟩
  have hs : name ≠ "stdout".toList ∧ name ≠ ['-'] := by
    constructor <;> rintro rfl <;> simp [isStd] at hn
  have hne : headers ≠ [] := by
    rintro rfl
    exact h0 rfl
  rw [World.get, if_neg hs.1, if_neg hs.2, h4]
  simp only
  rw [← write_header fmt [] _ _ h0, C48_select fmt parse [] (rows ++ chunks.flatten) headers hne hh hd hr hx [⟨i, hi⟩] [var]
    (by simp [hv]) (by simp)]
  simp only
  congr 2
  generalize rows ++ chunks.flatten = l
  induction l with
  | nil => rfl
  | cons r t ih =>
    rw [List.map_cons, List.flatten_cons, ih, List.filterMap_cons]
    cases h : r[i]? <;> simp [h]

/-- C214 refuted: those on the standard output cannot: every variable raises `AttributeError`, and a line is printed among the results. -/
theorem C214_read_refuted (parse : Word → Option K) (name var : Word) (hn : isStd name = true) (w : World) (h : w.isOpen = true) :
    ∃ w' line, w.get parse name var = (w', .error .attr) ∧ w'.out = w.out ++ [line] := by
  by_cases h1 : name = "stdout".toList
  · exact ⟨_, _, by rw [World.get, if_pos h1, World.print, if_pos h], rfl⟩
  · have h2 : name = ['-'] := by
      have := hn
      simp only [isStd, Bool.or_eq_true, decide_eq_true_eq] at this
      exact this.resolve_left h1
    exact ⟨_, _, by rw [World.get, if_neg h1, if_pos h2, World.print, if_pos h], rfl⟩

/-- C214 refuted: once the standard output has been closed, which results sent to `-` do, every variable raises `KeyError`, as if it did
not exist. -/
theorem C214_closed_refuted (parse : Word → Option K) (name var : Word) (hn : isStd name = true) (w : World) (h : w.isOpen = false) :
    w.get parse name var = (w, .error .key) := by
  have hf : ¬ (w.isOpen = true) := by simp [h]
  by_cases h1 : name = "stdout".toList
  · rw [World.get, if_pos h1, World.print, if_neg hf]
  · have h2 : name = ['-'] := by
      have := hn
      simp only [isStd, Bool.or_eq_true, decide_eq_true_eq] at this
      exact this.resolve_left h1
    rw [World.get, if_neg h1, if_pos h2, World.print, if_neg hf]

/-- the hypotheses are met by two columns written in two pieces -/
example : join ["T".toList, "Vn1".toList] ≠ [] ∧ (∀ w ∈ ["T".toList, "Vn1".toList], Name w) ∧
    (["T".toList, "Vn1".toList].map lowerW).Nodup ∧ isStd "out.tran".toList = false ∧
    ((World.add digit "stdout".toList ["T".toList, "Vn1".toList] ⟨fun _ => none, [], true⟩ false [[[0, 5]], [[1, 6], [2, 7]]]).1.out =
      ["#T\tVn1".toList, "0\t5".toList, "1\t6".toList, "2\t7".toList]) := by
  refine ⟨by decide +kernel, by simp [Name], by decide +kernel, by decide +kernel, by decide +kernel⟩

end Verif.Streams
