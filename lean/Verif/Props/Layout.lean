import Verif.Props.Include
import Verif.Props.Parse
import Verif.Model.CircStr
import Verif.Props.PrintAn
import Verif.Model.Models

/-!
C210: the layout of a netlist.
-/

namespace Verif.Layout
open Verif.Netlist Verif.Parse

/-! ### Words -/

/-- no blank -/
abbrev solid (c : Char) : Bool := !c.isWhitespace

theorem wordsAux_eq (m acc : Line) : wordsAux m acc =
    if acc = [] ∧ m.takeWhile solid = [] then words (m.dropWhile solid)
    else (acc.reverse ++ m.takeWhile solid) :: words (m.dropWhile solid) := by
  have h := wordsAux_word (m.takeWhile solid) (fun c hc => by simpa using List.mem_takeWhile_imp hc) acc (m.dropWhile solid)
  rw [List.takeWhile_append_dropWhile] at h
  rw [h]
  generalize ht : m.takeWhile solid = t
  rcases hd : m.dropWhile solid with _ | ⟨c, r⟩
  · cases ha : t.reverse ++ acc with
    | nil =>
      simp only [List.append_eq_nil_iff, List.reverse_eq_nil_iff] at ha
      simp [ha.1, ha.2, words]
    | cons a l =>
      have hne : ¬ (acc = [] ∧ t = []) := by
        rintro ⟨rfl, rfl⟩
        simp at ha
      rw [if_neg hne, wordsAux, ← ha]
      · simp [words, wordsAux]
      · simp
  · have hc : c.isWhitespace = true := by
      have := List.head?_dropWhile_not solid m
      rw [hd] at this
      simpa using this
    rw [wordsAux, if_pos hc]
    have hw : words (c :: r) = wordsAux r [] := by
      rw [words, wordsAux, if_pos hc, if_pos rfl]
    rw [hw]
    by_cases h2 : t.reverse ++ acc = []
    · have h3 := List.append_eq_nil_iff.1 h2
      rw [if_pos h2, if_pos ⟨h3.2, by simpa using h3.1⟩]
    · rw [if_neg h2, if_neg]
      · simp
      · rintro ⟨rfl, rfl⟩
        exact h2 rfl

/-- a line that begins with no blank -/
def Begins (l : Line) : Prop := ∃ c r, l = c :: r ∧ c.isWhitespace = false

theorem words_begins {l : Line} (h : Begins l) : words l = word l :: words (l.dropWhile solid) := by
  obtain ⟨c, r, rfl, hc⟩ := h
  rw [words, wordsAux_eq, if_neg]
  · rfl
  · rintro ⟨-, h2⟩
    rw [List.takeWhile_cons_of_pos (by simp [hc])] at h2
    cases h2

theorem words_more {a b : Line} (c : Char) (hc : c.isWhitespace = false) (h : words (c :: a) = words (c :: b)) : words a = words b := by
  have key : ∀ m : Line, words (c :: m) = (c :: m.takeWhile solid) :: words (m.dropWhile solid) := by
    intro m
    rw [words_begins ⟨c, m, rfl, hc⟩, word]
    congr 1
    · rw [List.takeWhile_cons_of_pos (by simp [hc])]
    · rw [List.dropWhile_cons_of_pos (by simp [hc])]
  rw [key, key] at h
  simp only [List.cons.injEq, true_and] at h
  rw [words, words, wordsAux_eq, wordsAux_eq, h.1, h.2]

theorem wordsAux_append (a b acc : Line) : wordsAux (a ++ ' ' :: b) acc = wordsAux a acc ++ wordsAux b [] := by
  induction a generalizing acc with
  | nil =>
    cases acc with
    | nil => simp [wordsAux]
    | cons x l => simp [wordsAux]
  | cons c a ih =>
    rw [List.cons_append, wordsAux, wordsAux]
    split_ifs
    · exact ih []
    · rw [ih, List.cons_append]
    · exact ih _

theorem words_append (a b : Line) : words (a ++ ' ' :: b) = words a ++ words b := wordsAux_append a b []

theorem lower_blank (c : Char) : c.toLower.isWhitespace = c.isWhitespace := (PrintAn.low_char c).1

theorem norm_begins {l : Line} (h : norm l ≠ []) : Begins (norm l) := by
  unfold norm Units.strip at *
  have hs : ∀ m : Line, (m.dropWhile Char.isWhitespace).reverse.dropWhile Char.isWhitespace ≠ [] →
      ∃ c r, (m.dropWhile Char.isWhitespace) = c :: r ∧ c.isWhitespace = false ∧
        ∃ r', ((m.dropWhile Char.isWhitespace).reverse.dropWhile Char.isWhitespace).reverse = c :: r' := by
    intro m hm
    rcases hd : m.dropWhile Char.isWhitespace with _ | ⟨c, r⟩
    · rw [hd] at hm; simp at hm
    have hc : c.isWhitespace = false := by
      have := List.head?_dropWhile_not Char.isWhitespace m
      rw [hd] at this
      simpa using this
    refine ⟨c, r, rfl, hc, ?_⟩
    rw [List.reverse_cons, List.dropWhile_append]
    split_ifs with he
    · refine ⟨[], ?_⟩
      simp [hc]
    · exact ⟨(r.reverse.dropWhile Char.isWhitespace).reverse, by simp⟩
  have hne : ((l.dropWhile Char.isWhitespace).reverse.dropWhile Char.isWhitespace) ≠ [] := by
    intro h0
    rw [h0] at h
    simp at h
  obtain ⟨c, r, -, hc, r', hr⟩ := hs l hne
  rw [hr]
  exact ⟨c.toLower, r'.map Char.toLower, rfl, by rw [lower_blank, hc]⟩

theorem norm_nil {l : Line} : norm l = [] ↔ words (norm l) = [] := by
  constructor
  · intro h; rw [h]; rfl
  · intro h
    by_contra hn
    rw [words_begins (norm_begins hn)] at h
    cases h

/-! ### Content -/

/-- a comment -/
def isNote : List Line → Bool
  | ('*' :: _) :: _ => true
  | _ => false

/-- The words of the lines of a netlist after its title, continuations joined, comments and empty lines left out. -/
def content (ls : List Line) : List (List Line) := ((logical 1 ls).map fun x => words x.1).filter fun w => !isNote w

theorem logical_words (n m : Nat) (ls : List Line) : ((logical n ls).map fun x => words x.1) = (logical m ls).map fun x => words x.1 := by
  have := congrArg (List.map fun x : Line × Nat => words x.1) (Include.logical_bare n m ls)
  simpa [List.map_map, Function.comp_def, Include.bare] using this

theorem content_nil : content [] = [] := by simp [content, logical]

theorem content_blank {l : Line} (h : norm l = []) (rest : List Line) : content (l :: rest) = content rest := by
  rw [content, logical, if_pos h, logical_words 2 1, content]

theorem content_cons {l : Line} (h : norm l ≠ []) (rest : List Line) : content (l :: rest) =
    ([words (joinLines (norm l) rest).1].filter fun w => !isNote w) ++ content (joinLines (norm l) rest).2 := by
  rw [content, logical, if_neg h, List.map_cons, logical_words 2 1, content, ← List.filter_append]
  rfl

/-! ### A reader of words -/

structure WGroups where
  files : List Line := []
  directives : List (List Line) := []
  models : List (List Line) := []
  postproc : List (List Line) := []
  subckts : List (List (List Line)) := []
  elements : List (List Line) := []
  current : List (List Line) := []
  within : Bool := false

def ws (l : List (Line × Nat)) : List (List Line) := l.map fun x => words x.1

def gw (g : Groups) : WGroups :=
  { files := g.files, directives := ws g.directives, models := ws g.models, postproc := ws g.postproc, subckts := g.subckts.map ws,
    elements := ws g.elements, current := ws g.current, within := g.within }

inductive WStep where
  | next (g : WGroups)
  | stop
  | fail

def wmap : Step → WStep
  | .next g => .next (gw g)
  | .stop => .stop
  | .fail => .fail

def wpath : List Line → Option Line
  | [_, path] => some path
  | _ :: path :: ('*' :: _) :: _ => some path
  | _ => none

def wdot (g : WGroups) (w : Line) (l : List Line) : WStep :=
  if w = ".subckt".toList then
    if g.within then .fail else .next { g with current := g.current ++ [l], within := true }
  else if w = ".ends".toList then
    if !g.within then .fail else .next { g with within := false, subckts := g.subckts ++ [g.current], current := [] }
  else if w = ".include".toList then
    match wpath l with
    | some path => .next { g with files := g.files ++ [path] }
    | none => .fail
  else if w = ".end".toList then .stop
  else if w = ".plot".toList ∨ w = ".four".toList ∨ w = ".fft".toList then .next { g with postproc := g.postproc ++ [l] }
  else if w = ".model".toList then .next { g with models := g.models ++ [l] }
  else .next { g with directives := g.directives ++ [l] }

def wother (g : WGroups) (l : List Line) : WStep :=
  if g.within then .next { g with current := g.current ++ [l] } else .next { g with elements := g.elements ++ [l] }

def wstep (g : WGroups) (l : List Line) : WStep :=
  match l with
  | [] => wother g l
  | w :: _ => if w.head? = some '*' then .next g else if w.head? = some '.' then wdot g w l else wother g l

def wrun : WGroups → List (List Line) → Option WGroups
  | g, [] => if g.within then none else some g
  | g, l :: rest =>
    match wstep g l with
    | .next g => wrun g rest
    | .stop => if g.within then none else some g
    | .fail => none

theorem word_cons {c : Char} (hc : c.isWhitespace = false) (r : Line) : word (c :: r) = c :: word r := by
  unfold word
  rw [List.takeWhile_cons_of_pos (by simp [hc])]

theorem path_words (l : Line) : includePath l = wpath (words l) := rfl

theorem wstep_eq (g : Groups) (x : Line × Nat) (hx : Begins x.1) : wstep (gw g) (words x.1) = wmap (step g x) := by
  have hw := words_begins hx
  have hwi : (gw g).within = g.within := rfl
  obtain ⟨c, r, he, hc⟩ := hx
  have hwc : words x.1 = (c :: word r) :: words (x.1.dropWhile solid) := by rw [hw, he, word_cons hc]
  have h0 : wstep (gw g) (words x.1) =
      if c = '*' then .next (gw g) else if c = '.' then wdot (gw g) (c :: word r) (words x.1) else wother (gw g) (words x.1) := by
    rw [hwc, wstep]
    simp only [List.head?_cons, Option.some.injEq]
  clear hw hwc
  generalize wstep (gw g) (words x.1) = q at h0
  unfold step
  split
  · rename_i t h1
    rw [h1] at he
    cases he
    rw [h0, if_pos rfl]
    rfl
  · rename_i t h1
    rw [h1] at he
    cases he
    have e : word x.1 = '.' :: word r := by rw [h1, word_cons hc]
    rw [h0, if_neg (by decide), if_pos rfl]
    clear h0
    unfold wdot
    simp only [hwi, e, path_words]
    generalize ".subckt".toList = s1
    generalize ".ends".toList = s2
    generalize ".include".toList = s3
    generalize ".end".toList = s4
    generalize ".plot".toList = s5
    generalize ".four".toList = s6
    generalize ".fft".toList = s7
    generalize ".model".toList = s8
    rcases wpath (words x.1) with _ | p <;> split_ifs <;> simp [wmap, gw, ws]
  · rename_i h1 h2
    clear hwi
    have hwi : (gw g).within = g.within := rfl
    have n1 : c ≠ '*' := by
      rintro rfl
      exact h1 _ he
    have n2 : c ≠ '.' := by
      rintro rfl
      exact h2 _ he
    rw [h0, if_neg n1, if_neg n2, wother, hwi]
    split_ifs <;> simp [wmap, gw, ws]

theorem wrun_eq (g : Groups) (ls : List (Line × Nat)) (h : ∀ x ∈ ls, Begins x.1) :
    wrun (gw g) (ls.map fun x => words x.1) = (runLines g ls).map gw := by
  have hi : ∀ g : Groups, (if (gw g).within then none else some (gw g)) = (if g.within then none else some g : Option Groups).map gw := by
    intro g
    show (if g.within then none else some (gw g)) = _
    split_ifs <;> rfl
  induction ls generalizing g with
  | nil => simp only [wrun, runLines, List.map_nil]; exact hi g
  | cons x ls ih =>
    simp only [wrun, runLines, List.map_cons, wstep_eq g x (h x (by simp))]
    cases step g x with
    | next g' => exact ih g' fun y hy => h y (by simp [hy])
    | stop => exact hi g
    | fail => rfl

theorem wrun_notes (g : WGroups) (l : List (List Line)) : wrun g (l.filter fun w => !isNote w) = wrun g l := by
  induction l generalizing g with
  | nil => rfl
  | cons w l ih =>
    by_cases hn : isNote w = true
    · rw [List.filter_cons_of_neg (by simp [hn]), ih, wrun]
      unfold isNote at hn
      split at hn
      · rfl
      · cases hn
    · rw [List.filter_cons_of_pos (by simp [hn]), wrun, wrun]
      cases wstep g w with
      | next g' => exact ih g'
      | stop => rfl
      | fail => rfl

theorem joinLines_begins {a : Line} (h : Begins a) (rest : List Line) : Begins (joinLines a rest).1 := by
  induction rest generalizing a with
  | nil => exact h
  | cons n rest ih =>
    unfold joinLines
    split
    · exact h
    · obtain ⟨c, r, rfl, hc⟩ := h
      exact ih ⟨c, _, rfl, hc⟩
    · exact h

theorem logical_begins (n : Nat) (ls : List Line) : ∀ x ∈ logical n ls, Begins x.1 := by
  induction h : ls.length using Nat.strong_induction_on generalizing n ls with
  | _ k ih =>
    subst h
    cases ls with
    | nil => simp [logical]
    | cons l rest =>
      rw [logical]
      by_cases hl : norm l = []
      · rw [if_pos hl]
        exact ih _ (by simp) _ rest rfl
      · rw [if_neg hl]
        intro x hx
        rcases List.mem_cons.1 hx with rfl | hx
        · exact joinLines_begins (norm_begins hl) rest
        · have := joinLines_length (norm l) rest
          exact ih _ (by rw [List.length_cons]; omega) (n + 1) _ rfl x hx

theorem read_content (t : Line) (ls : List Line) :
    (readFile (t :: ls)).map (fun p => (p.1, gw p.2)) = (wrun {} (content ls)).map fun g => (norm t, g) := by
  have := wrun_eq {} (logical 1 ls) (logical_begins 1 ls)
  rw [content, wrun_notes, show ({} : WGroups) = gw {} from rfl, this, readFile]
  cases runLines {} (logical 1 ls) <;> rfl

/-- C210: two netlists with the same title and the same content make the same circuit, or raise the same error, whatever their layout.
`pm`, which reads the lines of models, looks at their words only. -/
theorem C210_content (pm : List (Line × Nat) → Except PErr (List Line)) (hpm : ∀ a b, ws a = ws b → pm a = pm b) (t t' : Line)
    (ls ls' : List Line) (ht : norm t = norm t') (h : content ls = content ls') :
    CircStr.readCirc pm (t :: ls) = CircStr.readCirc pm (t' :: ls') := by
  have h1 := read_content t ls
  rw [h, ht, ← read_content t' ls'] at h1
  unfold CircStr.readCirc
  cases h2 : readFile (t :: ls) with
  | none =>
    cases h3 : readFile (t' :: ls') with
    | none => rfl
    | some p => rw [h2, h3] at h1; cases h1
  | some p =>
    cases h3 : readFile (t' :: ls') with
    | none => rw [h2, h3] at h1; cases h1
    | some q =>
      rw [h2, h3] at h1
      simp only [Option.map_some, Option.some.injEq, Prod.mk.injEq, gw, WGroups.mk.injEq] at h1
      obtain ⟨e1, -, -, e2, -, -, e3, -⟩ := h1
      simp only [ws] at e3
      simp only [e1, e3, hpm _ _ e2]

/-! ### Blanks and letters -/

/-- the same words, whatever the blanks and the case of the letters -/
def Same (a b : Line) : Prop := words (norm a) = words (norm b)

theorem joinLines_same {r1 r2 : List Line} (h : List.Forall₂ Same r1 r2) {a b : Line} (hab : words a = words b) :
    words (joinLines a r1).1 = words (joinLines b r2).1 ∧ List.Forall₂ Same (joinLines a r1).2 (joinLines b r2).2 := by
  induction h generalizing a b with
  | nil => exact ⟨hab, .nil⟩
  | @cons x y r1 r2 hxy hr ih =>
    by_cases hx : norm x = []
    · have hy : norm y = [] := norm_nil.2 (by rw [← hxy, hx]; rfl)
      simp only [joinLines, hx, hy]
      exact ⟨hab, hr⟩
    · have hy : norm y ≠ [] := fun h0 => hx (norm_nil.2 (by rw [hxy, h0]; rfl))
      obtain ⟨c, r, e1, hc⟩ := norm_begins hx
      obtain ⟨d, r', e2, hd⟩ := norm_begins hy
      have hcd : c = d := by
        have h0 := hxy
        unfold Same at h0
        rw [e1, e2, words_begins ⟨c, r, rfl, hc⟩, words_begins ⟨d, r', rfl, hd⟩, word_cons hc, word_cons hd] at h0
        simp only [List.cons.injEq] at h0
        exact h0.1.1
      subst hcd
      by_cases hp : c = '+'
      · subst hp
        simp only [joinLines, e1, e2]
        apply ih
        rw [words_append, words_append, hab]
        congr 1
        apply words_more '+' hc
        have h0 := hxy
        unfold Same at h0
        rwa [e1, e2] at h0
      · have k : ∀ (z q : Line) (line : Line) (rest : List Line), norm z = c :: q → joinLines line (z :: rest) = (line, z :: rest) := by
          intro z q line rest hz
          unfold joinLines
          rw [hz]
          split
          · rename_i h1; cases h1
          · rename_i h1; cases h1; exact absurd rfl hp
          · rfl
        rw [k x r a r1 e1, k y r' b r2 e2]
        exact ⟨hab, .cons hxy hr⟩

theorem Same.content {l1 l2 : List Line} (h : List.Forall₂ Same l1 l2) : content l1 = content l2 := by
  induction hk : l1.length using Nat.strong_induction_on generalizing l1 l2 with
  | _ k ih =>
    subst hk
    cases h with
    | nil => rfl
    | @cons x y r1 r2 hxy hr =>
      by_cases hx : norm x = []
      · have hy : norm y = [] := norm_nil.2 (by rw [← hxy, hx]; rfl)
        rw [content_blank hx, content_blank hy]
        exact ih _ (by simp) hr rfl
      · have hy : norm y ≠ [] := fun h0 => hx (norm_nil.2 (by rw [hxy, h0]; rfl))
        obtain ⟨h1, h2⟩ := joinLines_same hr hxy
        rw [content_cons hx, content_cons hy, h1]
        have := joinLines_length (norm x) r1
        rw [ih _ (by rw [List.length_cons]; omega) h2 rfl]

/-- C210: blanks around and between the words of a line and the case of its letters make no difference. -/
theorem C210_blanks (pm : List (Line × Nat) → Except PErr (List Line)) (hpm : ∀ a b, ws a = ws b → pm a = pm b) (t : Line)
    (ls ls' : List Line) (h : List.Forall₂ Same ls ls') : CircStr.readCirc pm (t :: ls) = CircStr.readCirc pm (t :: ls') :=
  C210_content pm hpm t t ls ls' rfl (Same.content h)

theorem strip_lower (l : Line) : (Units.strip l).map Char.toLower = Units.strip (l.map Char.toLower) := by
  have key : ∀ m : Line, (m.dropWhile Char.isWhitespace).map Char.toLower = (m.map Char.toLower).dropWhile Char.isWhitespace := by
    intro m
    induction m with
    | nil => rfl
    | cons c m ih =>
      simp only [List.dropWhile_cons, List.map_cons, lower_blank]
      split_ifs
      · exact ih
      · rfl
  unfold Units.strip
  rw [List.map_reverse, key, List.map_reverse, key]

/-- C210: in particular, a netlist may be written in capital letters. -/
theorem C210_capitals (pm : List (Line × Nat) → Except PErr (List Line)) (hpm : ∀ a b, ws a = ws b → pm a = pm b) (t : Line)
    (ls : List Line) :
    CircStr.readCirc pm (t :: ls) = CircStr.readCirc pm (t.map Char.toUpper :: ls.map (List.map Char.toUpper)) := by
  have hn : ∀ l : Line, norm (l.map Char.toUpper) = norm l := by
    intro l
    rw [norm, norm, strip_lower, strip_lower, List.map_map]
    congr 1
    apply List.map_congr_left
    intro c _
    exact (Results.up_low c).2
  refine C210_content pm hpm _ _ _ _ (hn t).symm (Same.content ?_)
  rw [List.forall₂_map_right_iff]
  apply List.forall₂_same.2
  intro l _
  rw [Same, hn]

/-! ### Comments and empty lines -/

theorem content_skip (ls : List Line) : content (skipBlank ls) = content ls := by
  cases ls with
  | nil => rfl
  | cons l r =>
    rw [skipBlank]
    split_ifs with h
    · rw [content_blank h]
    · rfl

/-- a comment or an empty line -/
def Idle (x : Line) : Prop := norm x = [] ∨ (norm x).head? = some '*'

theorem content_idle_front {x : Line} (hx : Idle x) (post : List Line) (hp : ∀ l ∈ post.head?, ¬ Cont l) :
    content (x :: post) = content post := by
  by_cases h0 : norm x = []
  · exact content_blank h0 post
  · have hx := hx.resolve_left h0
    have hj := joinLines_block (norm x) [] post (by simp) hp
    simp only [List.nil_append, List.map_nil, List.flatten_nil, List.append_nil] at hj
    rw [content_cons h0, hj]
    have hb := words_begins (norm_begins h0)
    obtain ⟨c, r, e, hc⟩ := norm_begins h0
    rw [e] at hx
    simp only [List.head?_cons, Option.some.injEq] at hx
    subst hx
    rw [e, word_cons hc] at hb
    rw [e, hb, content_skip]
    simp [isNote]

theorem content_idle {x : Line} (hx : Idle x) (pre post : List Line) (hp : ∀ l ∈ post.head?, ¬ Cont l) :
    content (pre ++ x :: post) = content (pre ++ post) := by
  have hxc : ¬ Cont x := by
    intro hc
    rcases hx with h | h
    · rw [Cont, h] at hc; cases hc
    · rw [Cont, h] at hc; cases hc
  induction hk : pre.length using Nat.strong_induction_on generalizing pre with
  | _ k ih =>
    subst hk
    cases pre with
    | nil => exact content_idle_front hx post hp
    | cons l pre =>
      rw [List.cons_append, List.cons_append]
      by_cases hl : norm l = []
      · rw [content_blank hl, content_blank hl]
        exact ih _ (by simp) pre rfl
      rw [content_cons hl, content_cons hl]
      have hsplit := List.takeWhile_append_dropWhile (p := fun l => decide (Cont l)) (l := pre)
      have hconts : ∀ c ∈ pre.takeWhile (fun l => decide (Cont l)), Cont c := by
        intro c hc
        simpa using List.mem_takeWhile_imp hc
      have hlen := congrArg List.length hsplit
      have hrest : ∀ l ∈ (pre.dropWhile fun l => decide (Cont l)).head?, ¬ Cont l := by
        intro y hy
        have := List.head?_dropWhile_not (fun l => decide (Cont l)) pre
        rw [hy] at this
        simpa using this
      generalize pre.takeWhile (fun l => decide (Cont l)) = conts at hsplit hconts hlen
      generalize pre.dropWhile (fun l => decide (Cont l)) = rest at hsplit hlen hrest
      subst hsplit
      cases rest with
      | nil =>
        rw [List.append_nil, joinLines_block _ conts (x :: post) hconts (by simpa using hxc), joinLines_block _ conts post hconts hp]
        simp only
        rw [content_skip, content_skip, content_idle_front hx post hp]
      | cons y rest =>
        have hy : ¬ Cont y := hrest y (by simp)
        rw [List.append_assoc, List.append_assoc, joinLines_block _ conts (y :: rest ++ x :: post) hconts (by simpa using hy),
          joinLines_block _ conts (y :: rest ++ post) hconts (by simpa using hy)]
        simp only
        congr 1
        rw [content_skip, content_skip]
        exact ih _ (by simp [List.length_append]) (y :: rest) rfl

/-- C210: comments and empty lines may be put anywhere but in front of a continuation. -/
theorem C210_comments_partial (pm : List (Line × Nat) → Except PErr (List Line)) (hpm : ∀ a b, ws a = ws b → pm a = pm b) (t x : Line)
    (hx : Idle x) (pre post : List Line) (hp : ∀ l ∈ post.head?, ¬ Cont l) :
    CircStr.readCirc pm (t :: (pre ++ x :: post)) = CircStr.readCirc pm (t :: (pre ++ post)) :=
  C210_content pm hpm t t _ _ rfl (content_idle hx pre post hp)

/-- C210: a long line may be broken between words. -/
theorem C210_broken (pm : List (Line × Nat) → Except PErr (List Line)) (hpm : ∀ a b, ws a = ws b → pm a = pm b) (t a b : Line)
    (ha : ¬ Blank a) (post : List Line) (hb : norm (a ++ ' ' :: b) = norm a ++ ' ' :: norm b) (hp : norm ('+' :: b) = '+' :: norm b) :
    CircStr.readCirc pm (t :: a :: ('+' :: b) :: post) = CircStr.readCirc pm (t :: (a ++ ' ' :: b) :: post) := by
  refine C210_content pm hpm t t _ _ rfl ?_
  have h2 : norm (a ++ ' ' :: b) ≠ [] := by
    rw [hb]
    simp
  rw [content_cons ha, content_cons h2, hb]
  simp only [joinLines, hp]

/-- C210 refuted: a continuation after a comment belongs to the comment, so that a comment put between a line and its continuation takes
the rest of the line away: here the value of the resistor. -/
theorem C210_comments_refuted (pm : List (Line × Nat) → Except PErr (List Line)) (hpm : pm [] = .ok []) :
    CircStr.readCirc pm ["t".toList, "r1 1 0".toList, "* one kiloohm".toList, "+ 1k".toList] = .error .parse ∧
    CircStr.readCirc pm ["t".toList, "r1 1 0".toList, "+ 1k".toList] = .ok ("t".toList, [.R "r1".toList "1".toList "0".toList 1000]) := by
  have h1 : readFile ["t".toList, "r1 1 0".toList, "* one kiloohm".toList, "+ 1k".toList] =
    some ("t".toList, { elements := [("r1 1 0".toList, 2)] }) := by decide +kernel
  have h2 : readFile ["t".toList, "r1 1 0".toList, "+ 1k".toList] =
    some ("t".toList, { elements := [("r1 1 0  1k".toList, 2)] }) := by decide +kernel
  constructor
  · rw [CircStr.readCirc, h1]
    simp only [hpm]
    show (do let els ← parseAll [] [words "r1 1 0".toList] []; Except.ok ("t".toList, els)) = _
    decide +kernel
  · rw [CircStr.readCirc, h2]
    simp only [hpm]
    show (do let els ← parseAll [] [words "r1 1 0  1k".toList] []; Except.ok ("t".toList, els)) = _
    decide +kernel

theorem wordsAux_filter (p : Char → Bool) (hp : ∀ c, c.isWhitespace = true → p c = true) (m acc : Line) :
    wordsAux (m.filter p) (acc.filter p) = ((wordsAux m acc).map (List.filter p)).filter fun w => w ≠ [] := by
  induction m generalizing acc with
  | nil =>
    cases acc with
    | nil => simp [wordsAux]
    | cons x l =>
      have h1 : wordsAux [] (x :: l) = [(x :: l).reverse] := by simp [wordsAux]
      rw [h1]
      simp only [List.filter_nil, List.map_cons, List.map_nil, List.filter_reverse]
      cases hf : (x :: l).filter p with
      | nil => simp [wordsAux]
      | cons y k => simp [wordsAux]
  | cons c m ih =>
    by_cases hc : c.isWhitespace = true
    · rw [List.filter_cons_of_pos (hp c hc), wordsAux, wordsAux, if_pos hc, if_pos hc]
      have h0 := ih []
      rw [List.filter_nil] at h0
      by_cases ha : acc = []
      · rw [ha, List.filter_nil, if_pos rfl, if_pos rfl, h0]
      · rw [if_neg ha, h0, List.map_cons, List.filter_reverse]
        by_cases hf : acc.filter p = []
        · rw [if_pos hf, hf, List.filter_cons_of_neg (by simp)]
        · rw [if_neg hf, List.filter_cons_of_pos (by simp [hf])]
    · have h1 := ih (c :: acc)
      rw [wordsAux.eq_def (c :: m)]
      simp only [hc, Bool.false_eq_true, if_false]
      rw [← h1]
      by_cases hpc : p c = true
      · rw [List.filter_cons_of_pos hpc, List.filter_cons_of_pos hpc, wordsAux, if_neg hc]
      · rw [List.filter_cons_of_neg hpc, List.filter_cons_of_neg hpc]

/-- `parse_models`, which drops the parentheses of a line before it splits it, looks at words only. -/
theorem tokens_words {a b : Line} (h : words a = words b) : Models.tokens a = Models.tokens b := by
  have hp : ∀ c : Char, c.isWhitespace = true → (decide (c ≠ '(' ∧ c ≠ ')')) = true := by
    intro c hc
    simp only [decide_eq_true_eq]
    constructor <;> rintro rfl <;> revert hc <;> decide
  have key : ∀ l : Line, Models.tokens l =
      ((words l).map (List.filter fun c => decide (c ≠ '(' ∧ c ≠ ')'))).filter fun w => w ≠ [] := by
    intro l
    have := wordsAux_filter (fun c => decide (c ≠ '(' ∧ c ≠ ')')) hp l []
    rw [List.filter_nil] at this
    exact this
  rw [key, key, h]

/-- the labels that `parse_models` leaves -/
def labels {P : Type} (ctor : Models.Kind → Models.Args → Except Models.Err P) (ms : Models.Store P) (a : List (Line × Nat)) :
    Except PErr (List Line) :=
  match Models.parseModels ctor ms (a.map fun x => x.1) with
  | .ok ms => .ok (ms.map fun x => x.1)
  | .error _ => .error .parse

/-- C210: what the other theorems ask of the reader of models holds for `parse_models`. -/
theorem C210_models {P : Type} (ctor : Models.Kind → Models.Args → Except Models.Err P) (ms : Models.Store P) (a b : List (Line × Nat))
    (h : ws a = ws b) : labels ctor ms a = labels ctor ms b := by
  have : Models.parseModels ctor ms (a.map fun x => x.1) = Models.parseModels ctor ms (b.map fun x => x.1) := by
    induction a generalizing b ms with
    | nil =>
      cases b with
      | nil => rfl
      | cons y b => cases h
    | cons x a ih =>
      cases b with
      | nil => cases h
      | cons y b =>
        simp only [ws, List.map_cons, List.cons.injEq] at h
        have e : Models.modelLine ctor ms x.1 = Models.modelLine ctor ms y.1 := by
          unfold Models.modelLine
          rw [tokens_words h.1]
        simp only [List.map_cons, Models.parseModels, e]
        cases Models.modelLine ctor ms y.1 with
        | error e => rfl
        | ok ms' => exact ih ms' b h.2
  unfold labels
  rw [this]

/-- C210: one netlist in two layouts, with the same content -/
example : content ["* a divider".toList, "".toList, "V1 IN 0 type=vdc".toList, "+  vdc = 2".toList, "  R1 in  out 1K".toList,
      "r2 out 0 2k".toList] = content ["v1 in 0 type=vdc vdc = 2".toList, "r1 in out 1k".toList, "* end".toList, "R2 OUT 0 2K".toList] := by
  decide +kernel

/-- a comment in front of a line that is not a continuation, as `C210_comments_partial` asks -/
example : Idle "* a note".toList ∧ Idle "  ".toList ∧ ¬ Cont "r1 1 0 1k".toList := by
  unfold Idle
  decide +kernel

/-- a line broken in two, as `C210_broken` asks -/
example : ¬ Blank "r1 1".toList ∧ norm ("r1 1".toList ++ ' ' :: "0 1K".toList) = norm "r1 1".toList ++ ' ' :: norm "0 1K".toList ∧
    norm ('+' :: "0 1K".toList) = '+' :: norm "0 1K".toList := by
  decide +kernel

end Verif.Layout
