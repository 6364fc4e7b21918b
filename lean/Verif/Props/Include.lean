import Verif.Model.Include
import Verif.Props.Netlist
import Mathlib.Algebra.Order.BigOperators.Group.List
import Mathlib.Tactic.Linarith

/-!
C208: netlists of several files.
-/

namespace Verif.Include
open Verif.Netlist

/-- the text without the numbers of the lines -/
def bare (x : Line × Nat) : Line × Nat := (x.1, 0)

def erase (g : Groups) : Groups :=
  { files := g.files, directives := g.directives.map bare, models := g.models.map bare, postproc := g.postproc.map bare,
    subckts := g.subckts.map (List.map bare), elements := g.elements.map bare, current := g.current.map bare, within := g.within }

def mapStep (f : Groups → Groups) : Step → Step
  | .next g => .next (f g)
  | .stop => .stop
  | .fail => .fail

/-- `b`, then `g` -/
def app (b g : Groups) : Groups :=
  { files := b.files ++ g.files, directives := b.directives ++ g.directives, models := b.models ++ g.models,
    postproc := b.postproc ++ g.postproc, subckts := b.subckts ++ g.subckts, elements := b.elements ++ g.elements,
    current := g.current, within := g.within }

theorem step_app (b g : Groups) (ln : Line × Nat) : step (app b g) ln = mapStep (app b) (step g ln) := by
  have hw : (app b g).within = g.within := rfl
  unfold step
  rw [hw]
  split
  · rfl
  · simp only
    rcases includePath ln.1 with _ | p <;> split_ifs <;> simp [app, mapStep]
  · split_ifs <;> simp [app, mapStep]

theorem step_erase (g : Groups) (ln : Line × Nat) : step (erase g) (bare ln) = mapStep erase (step g ln) := by
  have hw : (erase g).within = g.within := rfl
  have hb : (bare ln).1 = ln.1 := rfl
  unfold step
  rw [hw, hb]
  split
  · rfl
  · simp only
    rcases includePath ln.1 with _ | p <;> split_ifs <;> simp [erase, mapStep]
  · split_ifs <;> simp [erase, mapStep]

theorem runLines_app (b g : Groups) (ls : List (Line × Nat)) : runLines (app b g) ls = (runLines g ls).map (app b) := by
  induction ls generalizing g with
  | nil =>
    simp only [runLines]
    show (if g.within then none else some (app b g)) = _
    split_ifs <;> rfl
  | cons x ls ih =>
    simp only [runLines, step_app]
    cases step g x with
    | next g' => exact ih g'
    | stop =>
      show (if g.within then none else some (app b g)) = _
      simp only
      split_ifs <;> rfl
    | fail => rfl

theorem runLines_erase (g : Groups) (ls : List (Line × Nat)) :
    runLines (erase g) (ls.map bare) = (runLines g ls).map erase := by
  induction ls generalizing g with
  | nil =>
    simp only [runLines, List.map_nil]
    show (if g.within then none else some (erase g)) = _
    split_ifs <;> rfl
  | cons x ls ih =>
    simp only [runLines, List.map_cons, step_erase]
    cases step g x with
    | next g' => exact ih g'
    | stop =>
      show (if g.within then none else some (erase g)) = _
      simp only
      split_ifs <;> rfl
    | fail => rfl

/-- the number of the first line changes only numbers -/
theorem logical_bare (n m : Nat) (ls : List Line) : (logical n ls).map bare = (logical m ls).map bare := by
  induction h : ls.length using Nat.strong_induction_on generalizing n m ls with
  | _ k ih =>
    subst h
    cases ls with
    | nil => simp [logical]
    | cons l rest =>
      rw [logical, logical]
      by_cases hl : norm l = []
      · rw [if_pos hl, if_pos hl]
        exact ih _ (by simp) _ _ rest rfl
      · rw [if_neg hl, if_neg hl, List.map_cons, List.map_cons]
        have := joinLines_length (norm l) rest
        rw [ih _ (by rw [List.length_cons]; omega) (n + 1) (m + 1) (joinLines (norm l) rest).2 rfl]
        rfl

/-- a step that goes on adds at most one file, at the end -/
theorem step_files {g g' : Groups} {x : Line × Nat} (h : step g x = .next g') : ∃ l, g'.files = g.files ++ l := by
  have := step_app { files := g.files } { g with files := [] } x
  have e : app { files := g.files } { g with files := [] } = g := by simp [app]
  rw [e, h] at this
  cases hs : step { g with files := [] } x with
  | next g'' => rw [hs] at this; simp only [mapStep, Step.next.injEq] at this; exact ⟨g''.files, by rw [this]; rfl⟩
  | stop => rw [hs] at this; cases this
  | fail => rw [hs] at this; cases this

theorem runFile_ok {fs : Line → Option (List Line)} {g g' : Groups} {ls : List (Line × Nat)} (h : runFile fs g ls = .ok g') :
    runLines g ls = some g' ∧ ∃ l, g'.files = g.files ++ l ∧ ∀ p ∈ l, (fs p).isSome = true := by
  induction ls generalizing g with
  | nil =>
    simp only [runFile, runLines] at h ⊢
    split_ifs at h ⊢ with hw
    cases h
    exact ⟨rfl, [], by simp, by simp⟩
  | cons x ls ih =>
    simp only [runFile, runLines] at h ⊢
    cases hs : step g x with
    | next g1 =>
      rw [hs] at h
      simp only at h ⊢
      split_ifs at h with ha
      obtain ⟨h1, l, h2, h3⟩ := ih h
      obtain ⟨l1, h4⟩ := step_files hs
      rw [h4, List.drop_left, List.all_eq_true] at ha
      refine ⟨h1, l1 ++ l, by rw [h2, h4, List.append_assoc], fun p hp => ?_⟩
      rcases List.mem_append.1 hp with hp | hp
      · exact ha p hp
      · exact h3 p hp
    | stop =>
      rw [hs] at h
      simp only at h ⊢
      split_ifs at h ⊢ with hw
      cases h
      exact ⟨rfl, [], by simp, by simp⟩
    | fail => rw [hs] at h; cases h

/-- between files no subcircuit is open -/
def Closed (g : Groups) : Prop := g.within = false ∧ g.current = []

theorem step_current {g g' : Groups} {x : Line × Nat} (hg : g.within = false → g.current = []) (h : step g x = .next g') :
    g'.within = false → g'.current = [] := by
  unfold step at h
  split at h
  · cases h; exact hg
  · simp only at h
    rcases hp : includePath x.1 with _ | p <;> rw [hp] at h <;> split_ifs at h <;> cases h <;> simp_all
  · split_ifs at h with hw
    · cases h; intro h2; simp_all
    · cases h; exact hg

theorem runLines_closed {g g' : Groups} {ls : List (Line × Nat)} (hg : g.within = false → g.current = []) (h : runLines g ls = some g') :
    Closed g' := by
  induction ls generalizing g with
  | nil =>
    simp only [runLines] at h
    split_ifs at h with hw
    cases h
    exact ⟨by simpa using hw, hg (by simpa using hw)⟩
  | cons x ls ih =>
    simp only [runLines] at h
    cases hs : step g x with
    | next g1 => rw [hs] at h; exact ih (step_current hg hs) h
    | stop =>
      rw [hs] at h
      simp only at h
      split_ifs at h with hw
      cases h
      exact ⟨by simpa using hw, hg (by simpa using hw)⟩
    | fail => rw [hs] at h; cases h

/-- What a file gives when it is read alone (after a title): `none` if it is refused. -/
def alone (ls : List Line) : Option Groups := (readFile ([] :: ls)).map Prod.snd

/-- one more file adds what it gives alone -/
theorem runFile_alone {fs : Line → Option (List Line)} {g g' : Groups} {n : Nat} {ls : List Line} (hg : Closed g)
    (h : runFile fs g (logical n ls) = .ok g') :
    Closed g' ∧ (∀ l, g'.files = g.files ++ l → ∀ p ∈ l, (fs p).isSome = true) ∧
      ∃ a, alone ls = some a ∧ erase g' = app (erase g) (erase a) := by
  obtain ⟨h1, l, h2, h3⟩ := runFile_ok h
  have e : app g {} = g := by
    obtain ⟨h4, h5⟩ := hg
    cases g
    simp only at h4 h5
    simp [app, h4, h5]
  rw [← e, runLines_app] at h1
  obtain ⟨a', ha', rfl⟩ := Option.map_eq_some_iff.1 h1
  have hc := runLines_closed (by simp) ha'
  refine ⟨hc, fun l' hl' => ?_, ?_⟩
  · rw [h2] at hl'
    rw [← List.append_cancel_left hl']
    exact h3
  have hr : runLines {} ((logical n ls).map bare) = some (erase a') := by
    have := runLines_erase {} (logical n ls)
    rw [ha'] at this
    exact this
  rw [logical_bare n 1 ls] at hr
  have := runLines_erase {} (logical 1 ls)
  rw [show erase {} = {} from rfl, hr] at this
  obtain ⟨a, h5, h6⟩ := Option.map_eq_some_iff.1 this.symm
  refine ⟨a, ?_, ?_⟩
  · show ((runLines {} (logical 1 ls)).map fun g => (norm [], g)).map Prod.snd = some a
    rw [h5]
    rfl
  · rw [h6]
    simp [erase, app]

/-- `a` is what the file `p` gives alone -/
def Gives (fs : Line → Option (List Line)) (p : Line) (a : Groups) : Prop := ∃ ls, fs p = some ls ∧ alone ls = some a

theorem app_assoc (a b c : Groups) : app (app a b) c = app a (app b c) := by simp [app]

theorem readFiles_done {fs : Line → Option (List Line)} {fuel i n : Nat} {g g' : Groups} (hg : Closed g) (hi : i ≤ g.files.length)
    (h : readFiles fs fuel i n g = .done g') :
    ∃ as, List.Forall₂ (Gives fs) (g'.files.drop i) as ∧ erase g' = as.foldl (fun b a => app b (erase a)) (erase g) ∧
      ∃ l, g'.files = g.files ++ l := by
  induction fuel generalizing i n g with
  | zero =>
    unfold readFiles at h
    rcases hp : g.files[i]? with _ | p
    · rw [hp] at h
      simp only at h
      cases h
      have := List.getElem?_eq_none_iff.1 hp
      exact ⟨[], by rw [List.drop_of_length_le this]; exact .nil, rfl, [], by simp⟩
    · rw [hp] at h
      cases h
  | succ fuel ih =>
    unfold readFiles at h
    rcases hp : g.files[i]? with _ | p
    · rw [hp] at h
      simp only at h
      cases h
      have := List.getElem?_eq_none_iff.1 hp
      exact ⟨[], by rw [List.drop_of_length_le this]; exact .nil, rfl, [], by simp⟩
    · rw [hp] at h
      simp only at h
      rcases hf : fs p with _ | ls
      · rw [hf] at h; cases h
      rw [hf] at h
      simp only at h
      rcases hr : runFile fs g (logical n ls) with e | g1
      · rw [hr] at h; cases h
      rw [hr] at h
      simp only at h
      obtain ⟨h1, -, a, h2, h3⟩ := runFile_alone hg hr
      obtain ⟨-, l, h4, -⟩ := runFile_ok hr
      obtain ⟨hlt, hge⟩ := List.getElem?_eq_some_iff.1 hp
      obtain ⟨as, h5, h6, l', h7⟩ := ih h1 (by rw [h4, List.length_append]; omega) h
      have hl : g'.files = g.files ++ (l ++ l') := by rw [h7, h4, List.append_assoc]
      refine ⟨a :: as, ?_, ?_, _, hl⟩
      · have : g'.files.drop i = p :: g'.files.drop (i + 1) := by
          rw [hl, List.drop_append_of_le_length hi, List.drop_append_of_le_length (by omega), ← List.cons_append,
            List.drop_eq_getElem_cons hlt, hge]
        rw [this]
        exact .cons ⟨ls, hf, h2⟩ h5
      · rw [h6, h3]
        rfl

/-- texts of some lines -/
def texts (l : List (Line × Nat)) : List Line := l.map Prod.fst

theorem texts_erase {a b : List (Line × Nat)} (h : a.map bare = b.map bare) : texts a = texts b := by
  have := congrArg texts h
  simpa [texts, bare, Function.comp_def] using this

theorem fold_fields (as : List Groups) (b : Groups) :
    (as.foldl (fun b a => app b (erase a)) b).files = b.files ++ as.flatMap (fun a => a.files) ∧
    texts (as.foldl (fun b a => app b (erase a)) b).directives = texts b.directives ++ as.flatMap (fun a => texts a.directives) ∧
    texts (as.foldl (fun b a => app b (erase a)) b).models = texts b.models ++ as.flatMap (fun a => texts a.models) ∧
    texts (as.foldl (fun b a => app b (erase a)) b).postproc = texts b.postproc ++ as.flatMap (fun a => texts a.postproc) ∧
    texts (as.foldl (fun b a => app b (erase a)) b).elements = texts b.elements ++ as.flatMap (fun a => texts a.elements) ∧
    (as.foldl (fun b a => app b (erase a)) b).subckts.map texts = b.subckts.map texts ++ as.flatMap (fun a => a.subckts.map texts) := by
  induction as generalizing b with
  | nil => simp
  | cons a as ih =>
    obtain ⟨h1, h2, h3, h4, h5, h6⟩ := ih (app b (erase a))
    simp only [List.foldl_cons, h1, h2, h3, h4, h5, h6]
    simp [app, erase, texts, bare, Function.comp_def]

/-- C208: a netlist of several files gives what its files give alone: first the main file, then the included ones in the order in
which they were asked for (those of the main file before those of included files). -/
theorem C208_groups (fs : Line → Option (List Line)) (fuel : Nat) (t : Line) (ls : List Line) (g : Groups)
    (h : readNetlist fs fuel (t :: ls) = .done g) :
    ∃ a as, alone ls = some a ∧ List.Forall₂ (Gives fs) g.files as ∧
      g.files = (a :: as).flatMap (fun a => a.files) ∧
      texts g.elements = (a :: as).flatMap (fun a => texts a.elements) ∧
      texts g.directives = (a :: as).flatMap (fun a => texts a.directives) ∧
      texts g.models = (a :: as).flatMap (fun a => texts a.models) ∧
      texts g.postproc = (a :: as).flatMap (fun a => texts a.postproc) ∧
      g.subckts.map texts = (a :: as).flatMap (fun a => a.subckts.map texts) := by
  simp only [readNetlist] at h
  rcases hr : runFile fs {} (logical 1 ls) with e | g1
  · rw [hr] at h; cases h
  rw [hr] at h
  simp only at h
  obtain ⟨h1, -, a, h2, h3⟩ := runFile_alone ⟨rfl, rfl⟩ hr
  obtain ⟨as, h4, h5, -⟩ := readFiles_done h1 (Nat.zero_le _) h
  rw [List.drop_zero] at h4
  have h6 := fold_fields as (erase g1)
  rw [← h5, h3] at h6
  refine ⟨a, as, h2, h4, ?_⟩
  obtain ⟨e1, e2, e3, e4, e5, e6⟩ := h6
  simp only [erase, app, texts, bare, List.map_map, Function.comp_def, List.map_nil, List.nil_append] at e1 e2 e3 e4 e5 e6
  simp only [List.flatMap_cons]
  exact ⟨e1, e5, e2, e3, e4, e6⟩

/-- C208: so every file opens as many subcircuits as it closes, and every file asked for exists. -/
theorem C208_whole (fs : Line → Option (List Line)) (fuel : Nat) (t : Line) (ls : List Line) (g : Groups)
    (h : readNetlist fs fuel (t :: ls) = .done g) (p : Line) (hp : p ∈ g.files) :
    ∃ l, fs p = some l ∧ opened (active (logical 1 l)) = closed (active (logical 1 l)) := by
  obtain ⟨a, as, -, h2, -⟩ := C208_groups fs fuel t ls g h
  obtain ⟨b, -, l, h3, h4⟩ : ∃ b ∈ as, Gives fs p b := by
    clear h
    revert h2 hp
    generalize g.files = F
    intro hp h2
    induction h2 with
    | nil => simp at hp
    | cons h0 _ ih =>
      rcases List.mem_cons.1 hp with rfl | hp
      · exact ⟨_, by simp, h0⟩
      · obtain ⟨b, hb, r⟩ := ih hp
        exact ⟨b, by simp [hb], r⟩
  refine ⟨l, h3, ?_⟩
  by_contra hne
  have := (C84_refused [] l).2 (.inr hne)
  rw [alone, this] at h4
  cases h4

/-- files of a set, of which every one asks for another of the set -/
def Circle (fs : Line → Option (List Line)) (S : Line → Bool) : Prop :=
  ∀ p, S p = true → ∀ l a, fs p = some l → alone l = some a → ∃ q ∈ a.files, S q = true

/-- C208 refuted: files that include each other in a circle are read for ever (or until one of them is refused): a result is never
reached. -/
theorem C208_circle_refuted (fs : Line → Option (List Line)) (S : Line → Bool) (hS : Circle fs S) (t : Line) (ls : List Line)
    (hm : ∀ a, alone ls = some a → ∃ q ∈ a.files, S q = true) (fuel : Nat) (g : Groups) :
    readNetlist fs fuel (t :: ls) ≠ .done g := by
  intro h
  obtain ⟨a, as, h1, h2, h3, -⟩ := C208_groups fs fuel t ls g h
  have key : g.files.countP S ≤ (as.flatMap fun a => a.files).countP S := by
    clear h3 h
    revert h2
    generalize g.files = F
    intro h2
    induction h2 with
    | nil => simp
    | @cons p b ps bs h0 _ ih =>
      rw [List.countP_cons, List.flatMap_cons, List.countP_append]
      split_ifs with hp
      · obtain ⟨l, h4, h5⟩ := h0
        obtain ⟨q, hq, hs⟩ := hS p hp l b h4 h5
        have : 0 < b.files.countP S := List.countP_pos_iff.2 ⟨q, hq, hs⟩
        omega
      · omega
  obtain ⟨q, hq, hs⟩ := hm a h1
  have : 0 < a.files.countP S := List.countP_pos_iff.2 ⟨q, hq, hs⟩
  have h5 := congrArg (List.countP S) h3
  rw [List.flatMap_cons, List.countP_append] at h5
  omega

theorem step_include (g : Groups) (n : Nat) (l r p : Line) (hl : l = '.' :: r) (hw : word l = ".include".toList)
    (hp : includePath l = some p) : step g (l, n) = .next { g with files := g.files ++ [p] } := by
  subst hl
  simp only [step]
  rw [if_neg (by rw [hw]; decide), if_neg (by rw [hw]; decide), if_pos hw, hp]

/-- C208 refuted: a file that includes itself, for example. -/
theorem C208_self_refuted (fuel : Nat) :
    readNetlist (fun p => if p = "a".toList then some [".include a".toList] else none) fuel ["title".toList, ".include a".toList] =
      .more := by
  have h1 : ∀ n, logical n [".include a".toList] = [(".include a".toList, n + 1)] := by
    intro n
    rw [logical, if_neg (by decide +kernel)]
    simp only [joinLines]
    rw [logical]
    congr 1
  have h2 : ∀ (g : Groups) n, g.within = false → runFile (fun p => if p = "a".toList then some [".include a".toList] else none) g
      [(".include a".toList, n)] = .ok { g with files := g.files ++ ["a".toList] } := by
    intro g n hg
    have hs : step g (".include a".toList, n) = .next { g with files := g.files ++ ["a".toList] } :=
      step_include g n _ "include a".toList _ (by decide +kernel) (by decide +kernel) (by decide +kernel)
    rw [runFile, hs]
    simp only [List.drop_left, List.all_cons, List.all_nil, if_true, Option.isSome_some, Bool.and_self, runFile]
    rw [hg]
    rfl
  have h3 : ∀ fuel i n (g : Groups), g.within = false → i < g.files.length → (∀ p ∈ g.files, p = "a".toList) →
      readFiles (fun p => if p = "a".toList then some [".include a".toList] else none) fuel i n g = .more := by
    intro fuel
    induction fuel with
    | zero =>
      intro i n g _ hi _
      unfold readFiles
      rw [List.getElem?_eq_getElem hi]
    | succ fuel ih =>
      intro i n g hw hi ha
      unfold readFiles
      rw [List.getElem?_eq_getElem hi, ha _ (List.getElem_mem hi)]
      simp only [if_true]
      rw [h1, h2 g _ hw]
      exact ih _ _ _ hw (by simp; omega) (by
        intro p hp
        rcases List.mem_append.1 hp with hp | hp
        · exact ha p hp
        · simpa using hp)
  rw [readNetlist, h1, h2 _ _ rfl]
  exact h3 _ _ _ _ rfl (by simp) (by simp)

/-! ### An end -/

/-- files asked for by a file -/
def asked (fs : Line → Option (List Line)) (p : Line) : List Line := ((fs p).bind alone).elim [] fun a => a.files

/-- number of files read because of a file, counted to a depth -/
def weight (fs : Line → Option (List Line)) : Nat → Line → Nat
  | 0, _ => 1
  | k + 1, p => 1 + ((asked fs p).map (weight fs k)).sum

theorem weight_mono (fs : Line → Option (List Line)) (k : Nat) : ∀ p, weight fs k p ≤ weight fs (k + 1) p := by
  induction k with
  | zero => intro p; simp [weight]
  | succ k ih =>
    intro p
    rw [weight, weight]
    have := List.sum_le_sum (l := asked fs p) (f := weight fs k) (g := weight fs (k + 1)) (fun q _ => ih q)
    omega

theorem weight_le (fs : Line → Option (List Line)) {k m : Nat} (h : k ≤ m) (p : Line) : weight fs k p ≤ weight fs m p := by
  induction h with
  | refl => exact le_rfl
  | step _ ih => exact ih.trans (weight_mono fs _ p)

theorem readFiles_ends {fs : Line → Option (List Line)} {w : Line → Nat} (hw : ∀ p, 1 + ((asked fs p).map w).sum ≤ w p)
    (fuel i n : Nat) (g : Groups) (hg : Closed g) (hf : ((g.files.drop i).map w).sum ≤ fuel) : readFiles fs fuel i n g ≠ .more := by
  induction fuel generalizing i n g with
  | zero =>
    unfold readFiles
    rcases hp : g.files[i]? with _ | p
    · simp
    · obtain ⟨hlt, hge⟩ := List.getElem?_eq_some_iff.1 hp
      rw [List.drop_eq_getElem_cons hlt, List.map_cons, List.sum_cons] at hf
      have := hw g.files[i]
      omega
  | succ fuel ih =>
    unfold readFiles
    rcases hp : g.files[i]? with _ | p
    · simp
    · simp only
      obtain ⟨hlt, hge⟩ := List.getElem?_eq_some_iff.1 hp
      rw [List.drop_eq_getElem_cons hlt, List.map_cons, List.sum_cons, hge] at hf
      rcases hq : fs p with _ | ls
      · simp
      simp only
      rcases hr : runFile fs g (logical n ls) with e | g1
      · simp
      simp only
      obtain ⟨h1, -, a, h2, h3⟩ := runFile_alone hg hr
      have h4 : g1.files = g.files ++ a.files := congrArg Groups.files h3
      have h5 : asked fs p = a.files := by simp [asked, hq, h2]
      have h6 := hw p
      rw [h5] at h6
      refine ih _ _ _ h1 ?_
      rw [h4, List.drop_append_of_le_length (by omega), List.map_append, List.sum_append]
      omega

/-- C208: if no file includes itself, directly or through others, reading comes to an end. -/
theorem C208_ends (fs : Line → Option (List Line)) (rank : Line → Nat)
    (hr : ∀ p l a, fs p = some l → alone l = some a → ∀ q ∈ a.files, rank q < rank p) (ls : List Line) :
    ∃ fuel, readNetlist fs fuel ls ≠ .more := by
  cases ls with
  | nil => exact ⟨0, by simp [readNetlist]⟩
  | cons t rest =>
    have hw : ∀ p, 1 + ((asked fs p).map fun q => weight fs (rank q) q).sum ≤ weight fs (rank p) p := by
      intro p
      have hq : ∀ q ∈ asked fs p, rank q < rank p := by
        intro q hq
        unfold asked at hq
        rcases h1 : fs p with _ | l
        · simp [h1] at hq
        rcases h2 : alone l with _ | a
        · simp [h1, h2] at hq
        exact hr p l a h1 h2 q (by simpa [h1, h2] using hq)
      rcases hk : rank p with _ | k
      · have : asked fs p = [] := by
          rw [List.eq_nil_iff_forall_not_mem]
          intro q h
          have := hq q h
          omega
        simp [this, weight]
      · rw [weight]
        have := List.sum_le_sum (l := asked fs p) (f := fun q => weight fs (rank q) q) (g := weight fs k)
          (fun q h => weight_le fs (by have := hq q h; omega) q)
        omega
    rcases h1 : runFile fs {} (logical 1 rest) with e | g
    · exact ⟨0, by simp [readNetlist, h1]⟩
    · refine ⟨((g.files.drop 0).map fun q => weight fs (rank q) q).sum, ?_⟩
      rw [readNetlist, h1]
      exact readFiles_ends hw _ _ _ _ (runFile_alone ⟨rfl, rfl⟩ h1).1 le_rfl

/-! ### Names and numbers -/

/-- a library with a subcircuit and a file it includes in its turn -/
def lib (p : Line) : Option (List Line) :=
  if p = "lib.net".toList then some [".model dm diode".toList, "".toList, ".include more.net".toList, ".subckt s a b".toList,
    "r1 a b 1k".toList, ".ends".toList, ".end".toList, "r9 1 0 1".toList]
  else if p = "more.net".toList then some ["r2 2 0 1k".toList]
  else none

/-- an example that meets the hypotheses: two files, one behind the other -/
example : readNetlist lib 2 ["title".toList, ".include lib.net".toList, "r1 1 0 1k".toList, ".op".toList] =
    .done
      { files := ["lib.net".toList, "more.net".toList]
        directives := [(".op".toList, 4)]
        models := [(".model dm diode".toList, 5)]
        elements := [("r1 1 0 1k".toList, 3), ("r2 2 0 1k".toList, 11)]
        subckts := [[(".subckt s a b".toList, 7), ("r1 a b 1k".toList, 8)]] } := by decide +kernel

/-- ranks for `C208_ends` -/
example : ∀ p l a, lib p = some l → alone l = some a → ∀ q ∈ a.files,
    (if q = "lib.net".toList then 2 else if q = "more.net".toList then 1 else 0) <
      if p = "lib.net".toList then 2 else if p = "more.net".toList then 1 else 0 := by
  intro p l a h1 h2
  unfold lib at h1
  split_ifs at h1 with h3 h4
  · cases h1
    have : (alone [".model dm diode".toList, "".toList, ".include more.net".toList, ".subckt s a b".toList, "r1 a b 1k".toList,
      ".ends".toList, ".end".toList, "r9 1 0 1".toList]).map (fun a => a.files) = some ["more.net".toList] := by decide +kernel
    rw [h2] at this
    simp only [Option.map_some, Option.some.injEq] at this
    rw [this, h3]
    decide +kernel
  · cases h1
    have : (alone ["r2 2 0 1k".toList]).map (fun a => a.files) = some [] := by decide +kernel
    rw [h2] at this
    simp only [Option.map_some, Option.some.injEq] at this
    intro q hq
    rw [this] at hq
    exact absurd hq List.not_mem_nil

/-- C208 refuted: a name with capital letters is looked up in small letters, so the file is not found. -/
theorem C208_capitals_refuted :
    readNetlist (fun p => if p = "Lib.net".toList then some [] else none) 1 ["title".toList, ".include Lib.net".toList] =
      .raised .io := by decide +kernel

/-- C208 refuted: the numbers of lines go on from one file to the next: the first line of an included file, which is at fault here, is
not line 1 but the line after the last of the main file. -/
theorem C208_numbers_refuted : ∃ g, readNetlist (fun p => if p = "a".toList then some ["bad 1 0".toList] else none) 1
      ["title".toList, ".include a".toList, "r1 1 0 1k".toList] = .done g ∧ ("bad 1 0".toList, 4) ∈ g.elements := by
  refine ⟨{ files := ["a".toList], elements := [("r1 1 0 1k".toList, 3), ("bad 1 0".toList, 4)] }, by decide +kernel, by simp⟩

/-- C208: a subcircuit has to end in the file it begins in. -/
example : readNetlist (fun p => if p = "a".toList then some [".ends".toList] else none) 1
      ["title".toList, ".include a".toList, ".subckt s a b".toList, "r1 a b 1".toList] = .raised .parse := by decide +kernel

/-- the hypothesis of `C208_circle_refuted`: two files that include each other -/
example : Circle (fun p => if p = "a".toList then some [".include b".toList] else if p = "b".toList then some [".include a".toList] else none)
    (fun p => p = "a".toList ∨ p = "b".toList) := by
  have h1 : (alone [".include b".toList]).map (fun a => a.files) = some ["b".toList] := by decide +kernel
  have h2 : (alone [".include a".toList]).map (fun a => a.files) = some ["a".toList] := by decide +kernel
  intro p hp l a hl ha
  simp only at hl
  split_ifs at hl with h3 h4
  · cases hl
    rw [ha] at h1
    simp only [Option.map_some, Option.some.injEq] at h1
    exact ⟨"b".toList, by rw [h1]; simp, by decide⟩
  · cases hl
    rw [ha] at h2
    simp only [Option.map_some, Option.some.injEq] at h2
    exact ⟨"a".toList, by rw [h2]; simp, by decide⟩

end Verif.Include
