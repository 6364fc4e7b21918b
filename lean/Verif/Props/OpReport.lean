import Verif.Model.OpReport
import Mathlib.Tactic.SplitIfs

/-!
C227: what an operating point analysis prints and writes.
-/

namespace Verif.OpReport
open Verif.Csv

variable {S : Type} {cli : Bool} {outfile : Option Word} {verbose : Nat} {r : Solved S}

/-- the reports among the items printed -/
def reports (w : World S) : List S := w.out.filterMap fun i => match i with
  | .report s => some s
  | _ => none

/-- C227: the solution without Gmin is returned if there is one, else that with Gmin, and `None` without that: what `op_analysis` of the
model of C119 returns. What is printed and written does not matter. -/
theorem C227_result {K : Type} [Field K] [LinearOrder K] {m : Nat} (o : Op.OOpts K) (c : Op.Circ K m) (gmin : K)
    (x0 : Option (Fin m → K)) (cli : Bool) (outfile : Option Word) (verbose : Nat) (bad : List Word) (w : World (Op.OpSol K m)) :
    (Op.dcSolve o c gmin x0 = .failed → ∀ y, (opReport cli outfile verbose ⟨none, y, bad⟩ w).1 = none ∧
      Op.opAnalysis o c gmin x0 = some none) ∧
    ∀ x1, Op.dcSolve o c gmin x0 = .solved x1 →
      (Op.dcSolve o c 0 (some x1) = .failed →
        Op.opAnalysis o c gmin x0 = some (opReport cli outfile verbose ⟨some ⟨x1, gmin⟩, none, bad⟩ w).1) ∧
      ∀ x2, Op.dcSolve o c 0 (some x1) = .solved x2 →
        Op.opAnalysis o c gmin x0 = some (opReport cli outfile verbose ⟨some ⟨x1, gmin⟩, some ⟨x2, 0⟩, bad⟩ w).1 := by
  refine ⟨fun h y => ⟨rfl, by simp [Op.opAnalysis, h]⟩, fun x1 h1 => ⟨fun h2 => ?_, fun x2 h2 => ?_⟩⟩ <;>
    simp [Op.opAnalysis, h1, h2, opReport]

/-- the solution returned, the items printed and the errors, before the results are written -/
def mid (v : Nat) (r : Solved S) : Option S × List (Item S) × List Error :=
  match r.first, r.second with
  | some s1, none => (some s1, if v = 0 then [] else [.latest, .report s1], [.noGmin])
  | some s1, some s2 => (some s2, if r.bad = [] then (if v = 0 then [] else [.within]) else
      .depends r.bad :: (if v = 0 then [] else [.titleWith, .report s1, .titleWithout, .report s2]), [])
  | none, _ => (none, [], [.giveUp])

theorem eq_none (cli : Bool) (v : Nat) (r : Solved S) : opReport cli none v r start =
    ((mid v r).1, ⟨(mid v r).2.1 ++ (match (mid v r).1 with | some s => if v > 2 ∧ cli = true then [.report s] else [] | none => []),
      (mid v r).2.2, []⟩) := by
  obtain ⟨f1, f2, bad⟩ := r
  cases f1 <;> cases f2 <;> by_cases hv : v = 0 <;> by_cases hb : bad = [] <;> by_cases hc : v > 2 ∧ cli = true <;>
    simp [opReport, mid, resultCheck, writeToFile, start, World.print, World.error, hv, hb, hc]

theorem eq_std (cli : Bool) (v : Nat) (r : Solved S) : opReport cli (some std) v r start =
    ((mid 0 r).1, ⟨(mid 0 r).2.1 ++ (match (mid 0 r).1 with | some s => if cli = true then [.report s] else [] | none => []),
      (mid 0 r).2.2, []⟩) := by
  obtain ⟨f1, f2, bad⟩ := r
  cases f1 <;> cases f2 <;> by_cases hb : bad = [] <;> cases cli <;>
    simp [opReport, mid, resultCheck, writeToFile, start, World.print, World.error, hb]

theorem eq_file (cli : Bool) (v : Nat) (r : Solved S) {f : Word} (hf : f ≠ std) : opReport cli (some f) v r start =
    ((mid v r).1, ⟨(mid v r).2.1 ++ (match (mid v r).1 with | some s => if v > 2 ∧ cli = true then [.report s] else [] | none => []),
      (mid v r).2.2, match (mid v r).1 with | some s => [(f ++ "info".toList, .report s), (f, .data s)] | none => []⟩) := by
  obtain ⟨f1, f2, bad⟩ := r
  cases f1 <;> cases f2 <;> by_cases hv : v = 0 <;> by_cases hb : bad = [] <;> by_cases hc : v > 2 ∧ cli = true <;>
    simp [opReport, mid, resultCheck, writeToFile, start, World.print, World.error, hv, hb, hc, hf]

/-- C227: with the name of a file, the report goes to the file with `info` added to the name and the data to the file of that name, both of
the solution that is returned; without a solution nothing is written. No other file is written in any case. -/
theorem C227_files (cli : Bool) (verbose : Nat) (r : Solved S) (outfile : Option Word) :
    (opReport cli outfile verbose r start).2.files = match outfile, (opReport cli outfile verbose r start).1 with
      | some f, some s => if f = std then [] else [(f ++ "info".toList, .report s), (f, .data s)]
      | _, _ => [] := by
  rcases outfile with _ | f
  · rw [eq_none]
  · by_cases hf : f = std
    · subst hf
      rw [eq_std]
      cases (mid 0 r).1 <;> simp
    · rw [eq_file _ _ _ hf]
      cases (mid verbose r).1 <;> simp [hf]

/-- C227: `stdout` from the command line: the report of the solution is all that is printed, if the solutions with and without Gmin
agree. -/
theorem C227_stdout_partial (verbose : Nat) (r : Solved S) (hb : r.bad = []) :
    (opReport true (some std) verbose r start).2.out = match (opReport true (some std) verbose r start).1 with
      | some s => [.report s]
      | none => [] := by
  rw [eq_std]
  obtain ⟨f1, f2, bad⟩ := r
  simp only at hb
  subst hb
  cases f1 <;> cases f2 <;> simp [mid]

/-- C227 refuted: if they do not, a warning is printed in front of it, although the verbosity is zero. -/
theorem C227_stdout_refuted (verbose : Nat) (s1 s2 : S) (bad : List Word) (hb : bad ≠ []) :
    (opReport true (some std) verbose ⟨some s1, some s2, bad⟩ start).2.out = [.depends bad, .report s2] := by
  rw [eq_std]
  simp [mid, hb]

/-- C227: at verbosity zero nothing is printed unless the results are to go there, if the solutions agree. -/
theorem C227_silent_partial (cli : Bool) (r : Solved S) (hb : r.bad = []) (outfile : Option Word) (ho : outfile ≠ some std) :
    (opReport cli outfile 0 r start).2.out = [] := by
  obtain ⟨f1, f2, bad⟩ := r
  simp only at hb
  subst hb
  rcases outfile with _ | f
  · rw [eq_none]
    cases f1 <;> cases f2 <;> simp [mid]
  · rw [eq_file _ _ _ fun h => ho (by rw [h])]
    cases f1 <;> cases f2 <;> simp [mid]

/-- C227 refuted: as a library (`options.cli` is false: "no printing") a line or a warning is printed after every operating point, at every
verbosity but zero, -/
theorem C227_library_refuted (s1 s2 : S) (bad : List Word) (outfile : Option Word) (ho : outfile ≠ some std) {verbose : Nat}
    (hv : verbose ≠ 0) :
    (opReport false outfile verbose ⟨some s1, some s2, bad⟩ start).2.out =
      if bad = [] then [.within] else [.depends bad, .titleWith, .report s1, .titleWithout, .report s2] := by
  rcases outfile with _ | f
  · rw [eq_none]
    by_cases hb : bad = [] <;> simp [mid, hb, hv]
  · rw [eq_file _ _ _ fun h => ho (by rw [h])]
    by_cases hb : bad = [] <;> simp [mid, hb, hv]

/-- C227 refuted: and the report that `outfile='stdout'` asks for is not printed. -/
theorem C227_lost_refuted (verbose : Nat) (r : Solved S) : reports (opReport false (some std) verbose r start).2 = [] := by
  rw [eq_std]
  obtain ⟨f1, f2, bad⟩ := r
  by_cases hb : bad = [] <;> cases f1 <;> cases f2 <;> simp [mid, reports, hb]

/-- C227: the reports that are printed: of the solution that is returned, at most once, if there are two solutions that agree; -/
theorem C227_once_partial (cli : Bool) (outfile : Option Word) (verbose : Nat) (s1 s2 : S) :
    reports (opReport cli outfile verbose ⟨some s1, some s2, []⟩ start).2 =
      if (verbose > 2 ∨ outfile = some std) ∧ cli = true then [s2] else [] := by
  rcases outfile with _ | f
  · rw [eq_none]
    by_cases hc : 2 < verbose ∧ cli = true <;> by_cases hv : verbose = 0 <;> simp [mid, reports, hc, hv]
  · by_cases hf : f = std
    · subst hf
      rw [eq_std]
      cases cli <;> simp [mid, reports]
    · rw [eq_file _ _ _ hf]
      by_cases hc : 2 < verbose ∧ cli = true <;> by_cases hv : verbose = 0 <;> simp [mid, reports, hc, hv, hf]

/-- C227 refuted: from the command line at the default verbosity the report of the returned solution is printed twice if the solutions do not
agree or there is none without Gmin. -/
theorem C227_twice_refuted (s1 s2 : S) {bad : List Word} (hb : bad ≠ []) {outfile : Option Word} (ho : outfile ≠ some std) {verbose : Nat}
    (hv : 2 < verbose) :
    reports (opReport true outfile verbose ⟨some s1, some s2, bad⟩ start).2 = [s1, s2, s2] ∧
    reports (opReport true outfile verbose ⟨some s1, none, bad⟩ start).2 = [s1, s1] := by
  have hv' : verbose ≠ 0 := by omega
  rcases outfile with _ | f
  · rw [eq_none, eq_none]
    simp [mid, reports, hb, hv, hv']
  · have hf : f ≠ std := fun h => ho (by rw [h])
    rw [eq_file _ _ _ hf, eq_file _ _ _ hf]
    simp [mid, reports, hb, hv, hv']

/-- C227: on the standard error there is one line if a solution is missing, and nothing else. -/
theorem C227_errors (cli : Bool) (outfile : Option Word) (verbose : Nat) (r : Solved S) :
    (opReport cli outfile verbose r start).2.err = match r.first, r.second with
      | none, _ => [.giveUp]
      | some _, none => [.noGmin]
      | some _, some _ => [] := by
  have key : ∀ v, (mid v r).2.2 = match r.first, r.second with
      | none, _ => [.giveUp]
      | some _, none => [.noGmin]
      | some _, some _ => [] := by
    intro v
    obtain ⟨f1, f2, bad⟩ := r
    cases f1 <;> cases f2 <;> simp [mid]
  rcases outfile with _ | f
  · rw [eq_none, key]
  · by_cases hf : f = std
    · subst hf
      rw [eq_std, key]
    · rw [eq_file _ _ _ hf, key]

/-- C227: `new_op` with a name: the results are in the files with `.op` and `.opinfo` added to it, in the command line program and in a
library session, and both are kept at the end. -/
theorem C227_named (cli : Bool) (tmp f : Word) (hf : f ≠ std) (verbose : Nat) (r : Solved S) (s : S)
    (hs : (opReport cli (some (fileName cli tmp ".op".toList (some f)).1) verbose r start).1 = some s) :
    (opReport cli (some (fileName cli tmp ".op".toList (some f)).1) verbose r start).2.files =
      [(f ++ ".opinfo".toList, .report s), (f ++ ".op".toList, .data s)] ∧ (fileName cli tmp ".op".toList (some f)).2 = [] := by
  have hn : fileName cli tmp ".op".toList (some f) = (f ++ ".op".toList, []) := by
    unfold fileName
    rw [if_neg (by simp [hf])]
    simp
  rw [hn] at hs ⊢
  rw [C227_files, hs]
  have hne : f ++ ".op".toList ≠ std := by
    intro h
    have := congrArg List.getLast? h
    simp [std] at this
  simpa using hne

/-- C227: `new_op` without a name in the command line program: the report is printed, and no files are written. -/
theorem C227_unnamed (tmp : Word) (outfile : Option Word) (ho : outfile = none ∨ outfile = some std) (verbose : Nat) (r : Solved S) (s : S)
    (hs : (opReport true (some (fileName true tmp ".op".toList outfile).1) verbose r start).1 = some s) :
    (opReport true (some (fileName true tmp ".op".toList outfile).1) verbose r start).2.files = [] ∧
      reports (opReport true (some (fileName true tmp ".op".toList outfile).1) verbose r start).2 = [s] := by
  have hn : fileName true tmp ".op".toList outfile = (std, []) := by
    unfold fileName
    rw [if_pos ho]
    simp
  rw [hn] at hs ⊢
  rw [eq_std] at hs ⊢
  obtain ⟨f1, f2, bad⟩ := r
  by_cases hb : bad = [] <;> cases f1 <;> cases f2 <;> simp_all [mid, reports]

/-- C227 refuted: an operating point analysis of a library session without a file name leaves a file behind: of the two temporary files only
the one with the data is removed at the end. -/
theorem C227_left_refuted (tmp : Word) (ht : tmp ≠ std) (outfile : Option Word) (ho : outfile = none ∨ outfile = some std) (verbose : Nat)
    (r : Solved S) (s : S) (hs : (opReport false (some (fileName false tmp ".op".toList outfile).1) verbose r start).1 = some s) :
    (((opReport false (some (fileName false tmp ".op".toList outfile).1) verbose r start).2.files.map Prod.fst).filter
      fun f => !(fileName false tmp ".op".toList outfile).2.contains f) = [tmp ++ "info".toList] := by
  have hn : fileName false tmp ".op".toList outfile = (tmp, [tmp]) := by
    unfold fileName
    rw [if_pos ho]
    simp
  rw [hn] at hs ⊢
  rw [C227_files, hs]
  have hi : (tmp ++ "info".toList == tmp) = false := by simp
  simp [ht]

/-! ### Examples -/

example : (opReport true (some "a.op".toList) 3 ⟨some 1, some 2, []⟩ start).2.files =
      [("a.opinfo".toList, .report 2), ("a.op".toList, .data 2)] ∧
    (opReport true (some "a.op".toList) 3 ⟨some 1, some 2, []⟩ start).2.out = [.within, .report 2] ∧
    (opReport true (some "a.op".toList) 3 ⟨some 1, some 2, ["V1".toList]⟩ start).2.out =
      [.depends ["V1".toList], .titleWith, .report 1, .titleWithout, .report 2, .report 2] ∧
    (opReport false (some "stdout".toList) 3 ⟨some 1, some 2, []⟩ start).2.out = [] ∧
    (opReport false none 0 ⟨some 1, none, []⟩ start).2.err = [.noGmin] := by decide +kernel

example : (opReport false (some (fileName false "/tmp/x.op".toList ".op".toList none).1) 0 ⟨some 1, some 2, []⟩ start).1 = some 2 := by
  decide +kernel

end Verif.OpReport
