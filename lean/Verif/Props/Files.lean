import Verif.Model.Files
import Mathlib.Tactic.Common
import Mathlib.Data.List.Basic

/-!
C130: every analysis keeps its results in a file of its own.
C131: the output of every post-processing directive is kept.
C132: post-processing works whatever the output file.
C133: a variable that does not exist is left out of a plot.
-/

namespace Verif.Files
open Verif.Circuit (Err)

variable {δ : Type}

/-! ### C130 -/

theorem dot_split {a b u v : Name} (hu : '.' ∉ u) (hv : '.' ∉ v) (h : a ++ '.' :: u = b ++ '.' :: v) :
    a = b ∧ u = v := by
  rcases List.append_eq_append_iff.1 h with ⟨c, hc, hd⟩ | ⟨c, hc, hd⟩
  · cases c with
    | nil => simp at hc hd; exact ⟨hc.symm, hd⟩
    | cons x t =>
      simp only [List.cons_append, List.cons.injEq] at hd
      exact absurd (by rw [hd.2]; simp) hu
  · cases c with
    | nil => simp at hc hd; exact ⟨hc, hd.symm⟩
    | cons x t =>
      simp only [List.cons_append, List.cons.injEq] at hd
      exact absurd (by rw [hd.2]; simp) hv

theorem suffix_dot (t : Typ) : ∃ u, t.suffix = '.' :: u ∧ '.' ∉ u := by
  cases t <;> exact ⟨_, rfl, by decide⟩

theorem suffix_inj {s t : Typ} (h : s.suffix = t.suffix) : s = t := by
  cases s <;> cases t <;> first | rfl | exact absurd h (by decide)

/-- names of different analyses or with different base are different -/
theorem name_inj {a b : Name} {s t : Typ} (h : a ++ s.suffix = b ++ t.suffix) : a = b ∧ s = t := by
  obtain ⟨u, hu, hu'⟩ := suffix_dot s
  obtain ⟨v, hv, hv'⟩ := suffix_dot t
  have h' := h
  rw [hu, hv] at h'
  obtain ⟨h1, h2⟩ := dot_split hu' hv' h'
  exact ⟨h1, suffix_inj (by rw [hu, hv, h2])⟩

theorem name_not_stdout (a : Name) (t : Typ) : a ++ t.suffix ≠ stdoutName := by
  obtain ⟨u, hu, -⟩ := suffix_dot t
  intro h
  have : '.' ∈ stdoutName := by rw [← h, hu]; simp
  exact absurd this (by decide)

theorem exec_other (fs : FS δ) (l : List (Res δ)) (n : Name) (h : ∀ r ∈ l, r.file ≠ n) : exec fs l n = fs n := by
  induction l generalizing fs with
  | nil => rfl
  | cons r t ih =>
    rw [exec, ih _ fun r' h' => h r' (List.mem_cons_of_mem _ h')]
    split
    · rfl
    · rw [FS.write, if_neg fun e => h r (List.mem_cons_self ..) e.symm]

/-- an analysis to be executed: the base name of its file, its type and what it computes -/
structure Job (δ : Type) where
  base : Name
  typ : Typ
  data : δ

/-- the result object `new_*` and `run` make for it -/
def Job.res (cli : Bool) (tmp : Name) (j : Job δ) : Res δ := ⟨newName cli tmp (some j.base) j.typ, j.data⟩

/-- C130 (partial: no two analyses with the same type and base name): after all analyses have been executed,
each of them still reads what it computed, whatever files there were before. -/
theorem C130_own_file_partial (cli : Bool) (tmp : Name) (fs : FS δ) (l : List (Job δ))
    (hs : ∀ j ∈ l, j.base ≠ stdoutName) (hd : (l.map (fun j => (j.base, j.typ))).Nodup) :
    ∀ j ∈ l, read (exec fs (l.map (Job.res cli tmp))) (j.res cli tmp) = .ok j.data := by
  have hfile : ∀ j ∈ l, (j.res cli tmp).file = j.base ++ j.typ.suffix := by
    intro j hj
    simp only [Job.res, newName, if_neg (hs j hj)]
  induction l generalizing fs with
  | nil => intro j hj; cases hj
  | cons a t ih =>
    rw [List.map_cons, List.nodup_cons] at hd
    intro j hj
    rw [List.map_cons, exec]
    have hat := hfile a (List.mem_cons_self ..)
    have hns : (a.res cli tmp).file ≠ stdoutName := by rw [hat]; exact name_not_stdout _ _
    rw [if_neg hns]
    rcases List.mem_cons.1 hj with rfl | hj
    · rw [read, if_neg hns, exec_other]
      · simp [FS.write, Job.res]
      · intro r hr
        obtain ⟨b, hb, rfl⟩ := List.mem_map.1 hr
        rw [hfile b (List.mem_cons_of_mem _ hb), hat]
        intro e
        obtain ⟨e1, e2⟩ := name_inj e
        exact hd.1 (List.mem_map.2 ⟨b, hb, by rw [e1, e2]⟩)
    · exact ih _ (fun b hb => hs b (List.mem_cons_of_mem _ hb)) hd.2
        (fun b hb => hfile b (List.mem_cons_of_mem _ hb)) j hj

/-- C130 refuted: of two analyses of the same type with the same base name, the first reads what the second
computed. -/
theorem C130_same_type_refuted (cli : Bool) (tmp base : Name) (hb : base ≠ stdoutName) (t : Typ) (fs : FS δ) (d1 d2 : δ) :
    read (exec fs [Job.res cli tmp ⟨base, t, d1⟩, Job.res cli tmp ⟨base, t, d2⟩]) (Job.res cli tmp ⟨base, t, d1⟩) =
      .ok d2 := by
  have hns := name_not_stdout base t
  simp [exec, read, Job.res, newName, hb, hns, FS.write]

/-- C130: without a name, and not from the command line, results go to a temporary file; from the command
line they go to standard output. -/
theorem C130_default_name (tmp : Name) (o : Option Name) (ho : o = none ∨ o = some stdoutName) (t : Typ) :
    newName false tmp o t = tmp ∧ newName true tmp o t = stdoutName := by
  rcases ho with rfl | rfl <;> simp [newName]

/-! ### C131 -/

/-- C131: plots get different files. -/
theorem C131_plots (num : Nat → Name) (hn : ∀ i j, num i = num j → i = j) (outtype base : Name) (i j : Nat)
    (h : plotName num outtype base i = plotName num outtype base j) : i = j := by
  simp only [plotName, List.append_cancel_left_eq, List.cons.injEq, true_and] at h
  have := List.append_cancel_right h
  exact hn i j this

theorem steps_mem {num : Nat → Name} {outtype base : Name} {fs : FS δ} {rs : Results δ} {skip : Bool} {i : Nat}
    {l : List Post} {os : List Out} (h : steps num outtype base fs rs skip i l = .ok os) :
    ∀ k, l[k]? = some .fft → (if base = stdoutName then .printed (i + k) else .written (lisName base) (i + k)) ∈ os := by
  induction l generalizing i os with
  | nil => intro k hk; simp at hk
  | cons p t ih =>
    simp only [steps] at h
    cases hs : step num outtype base fs rs skip i p with
    | error e => rw [hs] at h; cases h
    | ok o =>
      cases ht : steps num outtype base fs rs skip (i + 1) t with
      | error e => rw [hs, ht] at h; cases h
      | ok os' =>
        rw [hs, ht] at h
        cases h
        intro k hk
        cases k with
        | zero =>
          simp only [List.getElem?_cons_zero, Option.some.injEq] at hk
          subst hk
          simp only [step] at hs
          cases hr : needTran fs rs with
          | error e => rw [hr] at hs; cases hs
          | ok u =>
            rw [hr] at hs
            cases hs
            exact List.mem_append_left _ (by simp)
        | succ k =>
          simp only [List.getElem?_cons_succ] at hk
          have := ih ht k hk
          rw [show i + 1 + k = i + (k + 1) by omega] at this
          exact List.mem_append_right _ this

/-- C131 (partial: results printed to standard output, or the writing alone): every `.FFT` directive
produces its table; with output to standard output all are printed. -/
theorem C131_fft_partial (num : Nat → Name) (outtype base : Name) (fs : FS δ) (rs : Results δ) (l : List Post)
    (os : List Out) (h : process num outtype base fs rs l = .ok os) (k : Nat) (hk : l[k]? = some .fft) :
    (if base = stdoutName then Out.printed k else .written (lisName base) k) ∈ os := by
  have := steps_mem h k hk
  simpa using this

theorem finalTable_append (n : Name) (a b : List Out) :
    finalTable n (a ++ b) = (finalTable n b).or (finalTable n a) := by
  induction a with
  | nil => simp [finalTable]
  | cons o t ih => rw [List.cons_append, finalTable, ih, finalTable, Option.or_assoc]

/-- the last `.FFT` directive, counted from `i` -/
def lastFft : Nat → List Post → Option Nat
  | _, [] => none
  | i, p :: l => (lastFft (i + 1) l).or (if p = .fft then some i else none)

theorem final_steps {num : Nat → Name} {outtype base : Name} (hb : base ≠ stdoutName) {fs : FS δ} {rs : Results δ}
    {skip : Bool} {i : Nat} {l : List Post} {os : List Out} (h : steps num outtype base fs rs skip i l = .ok os) :
    finalTable (lisName base) os = lastFft i l := by
  induction l generalizing i os with
  | nil => simp only [steps] at h; cases h; rfl
  | cons p t ih =>
    simp only [steps] at h
    cases hs : step num outtype base fs rs skip i p with
    | error e => rw [hs] at h; cases h
    | ok o =>
      cases ht : steps num outtype base fs rs skip (i + 1) t with
      | error e => rw [hs, ht] at h; cases h
      | ok os' =>
        rw [hs, ht] at h
        cases h
        rw [finalTable_append, ih ht, lastFft]
        have ho : finalTable (lisName base) o = if p = .fft then some i else none := by
          cases p with
          | plot an =>
            simp only [step] at hs
            split at hs
            · cases hs; rfl
            · split at hs
              · cases hs
              · split at hs
                · cases hs; rfl
                · cases hs
          | four n =>
            simp only [step] at hs
            split at hs
            · cases hs; rfl
            · split at hs
              · cases hs
              · cases hs
                have : ∀ k, finalTable (lisName base) (List.replicate k (.printed i)) = none := by
                  intro k
                  induction k with
                  | zero => rfl
                  | succ k ih => rw [List.replicate_succ, finalTable, ih]; rfl
                rw [this]; simp
          | fft =>
            simp only [step] at hs
            split at hs
            · cases hs
            · cases hs
              simp [finalTable, Out.table, hb]
        rw [ho]

/-- C131 refuted: the file `.lis` holds the table of the last `.FFT` directive alone, whatever the others. -/
theorem C131_overwritten_refuted (num : Nat → Name) (outtype base : Name) (hb : base ≠ stdoutName) (fs : FS δ)
    (rs : Results δ) (l : List Post) (os : List Out) (h : process num outtype base fs rs l = .ok os) :
    finalTable (lisName base) os = lastFft 0 l := final_steps hb h

/-! ### C132 -/

/-- a directive that reads the transient results -/
def Reads : Post → Prop
  | .four n => n ≠ 0
  | .fft => True
  | .plot _ => False

/-- C132 refuted: if the results went to standard output - the default of the command line - every
netlist with a `.FOUR` or `.FFT` directive ends in an `AttributeError`, after all analyses were done. -/
theorem C132_stdout_refuted (num : Nat → Name) (outtype : Name) (fs : FS δ) (rs : Results δ) (r : Res δ)
    (hr : rs .tran = some r) (hf : r.file = mainName stdoutName .tran) (l : List Post) (p : Post) (hp : p ∈ l)
    (hp' : Reads p) : process num outtype stdoutName fs rs l = .error .attr := by
  have hrd : needTran fs rs = .error .attr := by
    simp [needTran, hr, read, hf, mainName]
  have key : ∀ (l : List Post) (i : Nat), p ∈ l → steps num outtype stdoutName fs rs true i l = .error .attr := by
    intro l
    induction l with
    | nil => intro i h; cases h
    | cons q t ih =>
      intro i h
      by_cases hq : Reads q
      · have : step num outtype stdoutName fs rs true i q = .error .attr := by
          cases q with
          | plot an => exact hq.elim
          | four n => simp only [step]; rw [if_neg hq, hrd]
          | fft => simp only [step]; rw [hrd]
        simp only [steps]; rw [this]
      · have : step num outtype stdoutName fs rs true i q = .ok [] := by
          cases q with
          | plot an => simp [step]
          | four n => simp only [Reads, not_not] at hq; simp [step, hq]
          | fft => exact absurd trivial hq
        have hpt : p ∈ t := by
          rcases List.mem_cons.1 h with rfl | h
          · exact absurd hp' hq
          · exact h
        simp only [steps]; rw [this]; simp only [ih (i + 1) hpt]
  unfold process
  by_cases ha : l.any (fun p => p.isPlot && decide (stdoutName = stdoutName)) = true
  · rw [ha]; exact key l 0 hp
  · -- without any plot the flag does not matter
    have hnp : ∀ q ∈ l, ∀ an, q ≠ .plot an := by
      intro q hq an e
      subst e
      exact ha (List.any_eq_true.2 ⟨_, hq, by simp [Post.isPlot]⟩)
    rw [Bool.not_eq_true] at ha
    rw [ha]
    have same : ∀ (l : List Post) (i : Nat), (∀ q ∈ l, ∀ an, q ≠ .plot an) →
        steps num outtype stdoutName fs rs false i l = steps num outtype stdoutName fs rs true i l := by
      intro l
      induction l with
      | nil => intros; rfl
      | cons q t ih =>
        intro i h
        have hs : step num outtype stdoutName fs rs false i q = step num outtype stdoutName fs rs true i q := by
          cases q with
          | plot an => exact absurd rfl (h _ (List.mem_cons_self ..) an)
          | four n => rfl
          | fft => rfl
        simp only [steps, hs, ih (i + 1) fun q' h' => h q' (List.mem_cons_of_mem _ h')]
    rw [same l 0 hnp]
    exact key l 0 hp

/-- C132 (partial: results in files): if every analysis the directives refer to was executed and its file
can be read, all directives are carried out. -/
theorem C132_files_partial (num : Nat → Name) (outtype base : Name) (fs : FS δ) (rs : Results δ) (l : List Post)
    (ht : ∃ r d, rs .tran = some r ∧ read fs r = .ok d)
    (hp : ∀ an, Post.plot an ∈ l → ∃ r d, rs an = some r ∧ read fs r = .ok d) :
    ∃ os, process num outtype base fs rs l = .ok os := by
  obtain ⟨r, d, h1, h2⟩ := ht
  have hrd : needTran fs rs = .ok () := by simp [needTran, h1, h2]
  have key : ∀ (skip : Bool) (l : List Post) (i : Nat),
      (∀ an, Post.plot an ∈ l → ∃ r d, rs an = some r ∧ read fs r = .ok d) →
      ∃ os, steps num outtype base fs rs skip i l = .ok os := by
    intro skip l
    induction l with
    | nil => intros; exact ⟨[], rfl⟩
    | cons q t ih =>
      intro i h
      obtain ⟨os, ho⟩ := ih (i + 1) fun an ha => h an (List.mem_cons_of_mem _ ha)
      have : ∃ o, step num outtype base fs rs skip i q = .ok o := by
        cases q with
        | plot an =>
          obtain ⟨r', d', h3, h4⟩ := h an (List.mem_cons_self ..)
          simp only [step, h3, h4]
          split <;> exact ⟨_, rfl⟩
        | four n => simp only [step, hrd]; split <;> exact ⟨_, rfl⟩
        | fft => simp only [step, hrd]; exact ⟨_, rfl⟩
      obtain ⟨o, hq⟩ := this
      exact ⟨o ++ os, by simp only [steps, hq, ho]⟩
  exact key _ l 0 hp

/-- C132 refuted: a directive for an analysis that was not executed, or gave no result, is a `KeyError`, and the
directives after it are lost. -/
theorem C132_missing_refuted (num : Nat → Name) (outtype base : Name) (hb : base ≠ stdoutName) (fs : FS δ)
    (rs : Results δ) (p : Post) (l : List Post)
    (hp : (Reads p ∧ rs .tran = none) ∨ ∃ an, p = .plot an ∧ rs an = none) :
    process num outtype base fs rs (p :: l) = .error .key := by
  have hs : step num outtype base fs rs false 0 p = .error .key := by
    rcases hp with ⟨hp, ht⟩ | ⟨an, rfl, ha⟩
    · cases p with
      | plot an => exact hp.elim
      | four n => simp only [step]; rw [if_neg hp]; simp [needTran, ht]
      | fft => simp [step, needTran, ht]
    · simp [step, ha]
  unfold process
  have hf : (p :: l).any (fun p => p.isPlot && decide (base = stdoutName)) = false := by simp [hb]
  rw [hf]
  simp only [steps, hs]

/-- C132: with output to standard output, plots are left out. -/
theorem C132_plots_partial (num : Nat → Name) (outtype : Name) (fs : FS δ) (rs : Results δ) (l : List Post)
    (hl : ∀ p ∈ l, ∃ an, p = .plot an) : process num outtype stdoutName fs rs l = .ok [] := by
  have key : ∀ (l : List Post) (i : Nat), (∀ p ∈ l, ∃ an, p = .plot an) →
      steps num outtype stdoutName fs rs true i l = .ok [] := by
    intro l
    induction l with
    | nil => intros; rfl
    | cons p t ih =>
      intro i h
      obtain ⟨an, rfl⟩ := h p (List.mem_cons_self ..)
      simp only [steps, step, if_true, ih (i + 1) fun q hq => h q (List.mem_cons_of_mem _ hq), List.nil_append]
  cases l with
  | nil => rfl
  | cons p t =>
    obtain ⟨an, rfl⟩ := hl p (List.mem_cons_self ..)
    have : ((Post.plot an) :: t).any (fun p => p.isPlot && decide (stdoutName = stdoutName)) = true := by
      simp [Post.isPlot]
    unfold process
    rw [this]
    exact key _ 0 hl

/-! ### C133 -/

/-- the variables of a pair exist -/
def Known (has : Name → Bool) (p : Name × Option Name) : Prop :=
  has p.1 = true ∧ ∀ n, p.2 = some n → n ≠ [] → has n = true

/-- C133 refuted: a pair with a variable that does not exist is not left out: the whole plot, and with it
`main`, ends in a `KeyError`. -/
theorem C133_missing_refuted (has : Name → Bool) (l : List (Name × Option Name)) (p : Name × Option Name) (hp : p ∈ l)
    (hk : ¬ Known has p) : plotLines has l = .error .key := by
  induction l with
  | nil => cases hp
  | cons q t ih =>
    obtain ⟨y2, y1⟩ := q
    rw [plotLines]
    by_cases hq : Known has (y2, y1)
    · have hpt : p ∈ t := by
        rcases List.mem_cons.1 hp with rfl | h
        · exact absurd hq hk
        · exact h
      rw [ih hpt]
      split
      · rfl
      · split <;> rfl
    · split
      · rfl
      · rename_i h1
        rw [if_pos]
        by_contra h2
        apply hq
        refine ⟨by simpa using h2, ?_⟩
        intro n hn hne
        simp only at hn
        subst hn
        simp only [unknown, Bool.and_eq_true, Bool.not_eq_true', not_and, Bool.not_eq_false] at h1
        exact h1 (by simpa using hne)

/-- C133 (partial: all variables exist): the lines asked for are drawn, in order. -/
theorem C133_known_partial (has : Name → Bool) (l : List (Name × Option Name)) (h : ∀ p ∈ l, Known has p) :
    plotLines has l = .ok l := by
  induction l with
  | nil => rfl
  | cons q t ih =>
    obtain ⟨y2, y1⟩ := q
    obtain ⟨h1, h2⟩ := h _ (List.mem_cons_self ..)
    rw [plotLines, if_neg, if_neg, ih fun p hp => h p (List.mem_cons_of_mem _ hp)]
    · simp only at h1; simp [h1]
    · cases y1 with
      | none => simp [unknown]
      | some n =>
        by_cases hn : n = []
        · simp [unknown, hn]
        · simp [unknown, h2 n rfl hn]

/-! ### Examples -/

/-- an operating point and two transients in files of their own -/
def demoJobs : List (Job Nat) :=
  [⟨"rc".toList, .op, 10⟩, ⟨"rc".toList, .tran, 20⟩, ⟨"rc2".toList, .tran, 30⟩]

example : (∀ j ∈ demoJobs, j.base ≠ stdoutName) ∧ (demoJobs.map (fun j => (j.base, j.typ))).Nodup := by decide

example : (demoJobs.map (Job.res false [])).map (·.file) = ["rc.op".toList, "rc.tran".toList, "rc2.tran".toList] := by
  decide

def demoNum (i : Nat) : Name := (toString i).toList

def demoRs (base : Name) : Results Nat
  | .tran => some ⟨mainName base .tran, 20⟩
  | _ => none

def demoFs (base : Name) : FS Nat := exec (fun _ => none) [⟨mainName base .tran, 20⟩]

/-- two FFTs and a plot with output to files: two tables written to the same file -/
example : process demoNum "png".toList "rc".toList (demoFs "rc".toList) (demoRs "rc".toList) [.fft, .plot .tran, .fft] =
      .ok [.written "rc.lis".toList 0, .plotFile "rc-1.png".toList, .written "rc.lis".toList 2] ∧
    lastFft 0 [.fft, .plot .tran, .fft] = some 2 := by
  decide +kernel

example : process demoNum "png".toList stdoutName (demoFs stdoutName) (demoRs stdoutName) [.plot .tran, .four 1] =
    .error .attr := by
  decide +kernel

example : plotLines (fun n => n == "VOUT".toList) [("VOUT".toList, none), ("VX".toList, none)] = .error .key ∧
    plotLines (fun n => n == "VOUT".toList) [("VOUT".toList, none), ("VOUT".toList, some "VOUT".toList)] =
      .ok [("VOUT".toList, none), ("VOUT".toList, some "VOUT".toList)] := by
  decide +kernel

end Verif.Files
