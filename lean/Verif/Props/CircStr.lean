import Verif.Model.CircStr
import Verif.Props.Parse
import Verif.Props.Netlist
import Verif.Props.PrintAn

/-!
Property C167: the text of a circuit, read as a netlist.
-/

namespace Verif.CircStr
open Verif.Netlist Verif.Parse Verif.Small

/-- What the text of an element has to satisfy to survive reading: its words have no blanks and no
capital letters, its numbers can be read back, and the element is of a kind that parses back, given
the elements before it. -/
structure Plain (fmt : ℚ → Line) (shown : Line × List (String × Option Val) → List Line)
    (before : List PElem) (e : PElem) : Prop where
  trips : RoundTrips [] before e
  name : (ident e).head? = some (letter e)
  numbers : ∀ x ∈ numbers e, Printable fmt x
  words : ∀ w ∈ elemLine fmt shown e, IsWord w ∧ ∀ c ∈ w, c.toLower = c

theorem strip_ends (s : Line) (h1 : ∀ c ∈ s.head?, c.isWhitespace = false)
    (h2 : ∀ c ∈ s.getLast?, c.isWhitespace = false) : Units.strip s = s := by
  have key : ∀ w : Line, (∀ c ∈ w.head?, c.isWhitespace = false) →
      w.dropWhile Char.isWhitespace = w := by
    intro w h
    cases w with
    | nil => rfl
    | cons c w => rw [List.dropWhile_cons, if_neg (by simp [h c (by simp)])]
  unfold Units.strip
  rw [key s h1, key s.reverse (by simpa using h2), List.reverse_reverse]

theorem joined_head (w : Line) (ws : List Line) (hw : w ≠ []) :
    (((w :: ws).intersperse [' ']).flatten).head? = w.head? := by
  cases w with
  | nil => exact absurd rfl hw
  | cons c w => cases ws <;> simp [List.intersperse]

theorem joined_last (ws : List Line) (h : ∀ w ∈ ws, IsWord w) :
    ∀ c ∈ ((ws.intersperse [' ']).flatten).getLast?, c.isWhitespace = false := by
  induction ws with
  | nil => simp
  | cons w ws ih =>
    cases ws with
    | nil =>
      intro c hc
      simp only [List.intersperse, List.flatten_cons, List.flatten_nil, List.append_nil] at hc
      exact (h w (by simp)).2 c (List.mem_of_getLast? hc)
    | cons w' ws =>
      intro c hc
      have ih' := ih (fun x hx => h x (List.mem_cons_of_mem _ hx))
      have hw' := (h w' (by simp)).1
      have hne : (((w' :: ws).intersperse [' ']).flatten) ≠ [] := by
        intro h0
        have := joined_head w' ws hw'
        rw [h0] at this
        cases w' with
        | nil => exact hw' rfl
        | cons a b => simp at this
      apply ih' c
      have e : (((w :: w' :: ws).intersperse [' ']).flatten) =
          w ++ [' '] ++ (((w' :: ws).intersperse [' ']).flatten) := by
        simp [List.intersperse]
      rw [e, List.getLast?_append_of_ne_nil _ hne] at hc
      exact hc

theorem joined_lower (ws : List Line) (h : ∀ w ∈ ws, ∀ c ∈ w, c.toLower = c) :
    ∀ c ∈ (ws.intersperse [' ']).flatten, c.toLower = c := by
  induction ws with
  | nil => simp
  | cons w ws ih =>
    cases ws with
    | nil => simpa using h
    | cons w' ws =>
      intro c hc
      rw [List.intersperse_cons_cons, List.flatten_cons, List.flatten_cons] at hc
      rcases List.mem_append.1 hc with hc | hc
      · exact h w (by simp) c hc
      · rcases List.mem_append.1 hc with hc | hc
        · rw [List.mem_singleton.1 hc]; rfl
        · exact ih (fun x hx => h x (List.mem_cons_of_mem _ hx)) c hc

theorem elemLine_cons (fmt : ℚ → Line) (shown) (e : PElem) :
    ∃ ws, elemLine fmt shown e = ident e :: ws := by
  cases e <;> exact ⟨_, rfl⟩

theorem letter_kind (e : PElem) : letter e ≠ '*' ∧ letter e ≠ '.' ∧ letter e ≠ '+' ∧
    (letter e).isWhitespace = false := by
  cases e <;> simp only [letter] <;> decide

section
variable {fmt : ℚ → Line} {shown : Line × List (String × Option Val) → List Line}
variable {before : List PElem} {e : PElem}

theorem Plain.head (h : Plain fmt shown before e) :
    (elemText fmt shown e).head? = some (letter e) := by
  obtain ⟨ws, hw⟩ := elemLine_cons fmt shown e
  unfold elemText
  rw [hw, joined_head _ _ (h.words (ident e) (by rw [hw]; simp)).1.1, h.name]

theorem Plain.norm (h : Plain fmt shown before e) :
    norm (elemText fmt shown e) = elemText fmt shown e := by
  unfold Netlist.norm
  rw [strip_ends]
  · exact (List.map_congr_left (joined_lower _ fun w hw => (h.words w hw).2)).trans
      (List.map_id _)
  · rw [h.head]
    simpa using (letter_kind e).2.2.2
  · exact joined_last _ fun w hw => (h.words w hw).1

theorem Plain.split (h : Plain fmt shown before e) :
    Netlist.words (elemText fmt shown e) = elemLine fmt shown e :=
  C60_words _ fun w hw => (h.words w hw).1

theorem Plain.cons (h : Plain fmt shown before e) :
    ∃ l, elemText fmt shown e = letter e :: l := by
  have := h.head
  cases ht : elemText fmt shown e with
  | nil => rw [ht] at this; cases this
  | cons c l => rw [ht] at this; simp at this; exact ⟨l, by rw [this]⟩

theorem Plain.line (h : Plain fmt shown before e) :
    ¬ Blank (elemText fmt shown e) ∧ ¬ Cont (elemText fmt shown e) := by
  obtain ⟨l, hl⟩ := h.cons
  have hk := letter_kind e
  constructor
  · intro hb
    unfold Blank at hb
    rw [h.norm, hl] at hb
    cases hb
  · intro hc
    unfold Cont at hc
    rw [h.norm, hl] at hc
    simp at hc
    exact hk.2.2.1 hc

end

/-- The elements of a circuit, each of them plain, given those before it. -/
def AllPlain (fmt : ℚ → Line) (shown : Line × List (String × Option Val) → List Line)
    (els : List PElem) : Prop :=
  ∀ a e b, els = a ++ e :: b → Plain fmt shown a e

theorem runLines_elements (ls : List (Line × Nat)) (h : ∀ l ∈ ls, ∃ c r, l.1 = c :: r ∧ c ≠ '*' ∧ c ≠ '.')
    (g : Groups) (hg : g.within = false) :
    runLines g ls = some { g with elements := g.elements ++ ls } := by
  induction ls generalizing g with
  | nil =>
    cases g
    simp only at hg
    simp [runLines, hg]
  | cons x ls ih =>
    obtain ⟨c, r, hx, h1, h2⟩ := h x (by simp)
    have hs : step g x = .next { g with elements := g.elements ++ [x] } := by
      unfold step
      rw [hx]
      split
      · rename_i heq; simp at heq; exact absurd heq.1 h1
      · rename_i heq; simp at heq; exact absurd heq.1 h2
      · simp [hg]
    unfold runLines
    rw [hs]
    simp only
    have := ih (fun l hl => h l (List.mem_cons_of_mem _ hl))
      { g with elements := g.elements ++ [x] } hg
    rw [this]
    simp

theorem parse_plain (fmt : ℚ → Line) (shown) (els : List PElem) (before : List PElem)
    (h : ∀ a e b, els = a ++ e :: b → Plain fmt shown (before ++ a) e) :
    parseAll [] (els.map (elemLine fmt shown)) before = .ok (before ++ els) := by
  induction els generalizing before with
  | nil => simp [parseAll]
  | cons e els ih =>
    have he : Plain fmt shown before e := by simpa using h [] e els rfl
    have := C60_roundtrip_partial fmt shown [] before e he.trips he.name he.numbers
    simp only [List.map_cons, parseAll, this]
    show parseAll [] (els.map (elemLine fmt shown)) (before ++ [e]) = _
    rw [ih (before ++ [e])]
    · simp
    · intro a e' b hab
      have := h (e :: a) e' b (by rw [hab]; rfl)
      simpa using this

theorem read_text (fmt : ℚ → Line) (shown) (title : Line) (els : List PElem)
    (h : AllPlain fmt shown els) :
    readFile (circStr fmt shown title els) = some (norm ('*' :: ' ' :: title),
      { elements := (els.map (elemText fmt shown)).zipIdx.map fun p => (p.1, 2 + p.2) }) := by
  have hp : ∀ e ∈ els, ∃ a, Plain fmt shown a e := by
    intro e he
    obtain ⟨a, b, hab⟩ := List.append_of_mem he
    exact ⟨a, h a e b hab⟩
  have hlog : logical 1 (els.map (elemText fmt shown)) =
      (els.map (elemText fmt shown)).zipIdx.map fun p => (p.1, 2 + p.2) := by
    rw [C85_numbers_partial _ (by
      intro l hl
      obtain ⟨e, he, rfl⟩ := List.mem_map.1 hl
      obtain ⟨a, ha⟩ := hp e he
      exact ha.line)]
    apply List.map_congr_left
    rintro ⟨l, i⟩ hl
    have : l ∈ els.map (elemText fmt shown) := List.fst_mem_of_mem_zipIdx hl
    obtain ⟨e, he, rfl⟩ := List.mem_map.1 this
    obtain ⟨a, ha⟩ := hp e he
    simp [ha.norm]
  unfold readFile circStr
  simp only
  rw [hlog, runLines_elements _ _ {} rfl]
  · simp
  · rintro ⟨l, i⟩ hl
    obtain ⟨⟨l', j⟩, hj, hq⟩ := List.mem_map.1 hl
    have : l' ∈ els.map (elemText fmt shown) := List.fst_mem_of_mem_zipIdx hj
    obtain ⟨e, he, rfl⟩ := List.mem_map.1 this
    obtain ⟨a, ha⟩ := hp e he
    obtain ⟨r, hr⟩ := ha.cons
    simp at hq
    exact ⟨letter e, r, by rw [← hq.1, hr], (letter_kind e).1, (letter_kind e).2.1⟩

/-- C167: the text of a circuit of resistors, capacitors and inductors without initial conditions,
couplings written after their inductors, and controlled sources, whose names have no capital
letters and whose numbers can be read back, reads back as the same elements in the same order.
Missing: the other elements and the title, for which it is false (below), and numbers rounded when
printed. -/
theorem C167_elements_partial (fmt : ℚ → Line) (shown) (pm) (hpm : pm [] = .ok []) (title : Line)
    (els : List PElem) (h : AllPlain fmt shown els) :
    ∃ t, readCirc pm (circStr fmt shown title els) = .ok (t, els) := by
  refine ⟨norm ('*' :: ' ' :: title), ?_⟩
  unfold readCirc
  rw [read_text fmt shown title els h]
  simp only
  rw [hpm]
  have hw : ((els.map (elemText fmt shown)).zipIdx.map fun p => (p.1, 2 + p.2)).map
      (fun l : Line × Nat => words l.1) = els.map (elemLine fmt shown) := by
    rw [List.map_map]
    have e1 : ((fun l : Line × Nat => words l.1) ∘ fun p : Line × Nat => (p.1, 2 + p.2)) =
        words ∘ Prod.fst := rfl
    rw [e1, ← List.map_map, List.zipIdx_map_fst, List.map_map]
    apply List.map_congr_left
    intro e he
    obtain ⟨a, b, hab⟩ := List.append_of_mem he
    exact (h a e b hab).split
  have hpa := parse_plain fmt shown els [] (by simpa [AllPlain] using h)
  show (do
    let els ← parseAll [] _ []
    Except.ok (_, els)) = _
  rw [hw, hpa]
  rfl

/-- C167: printing the circuit that was read gives the same lines for the elements. -/
theorem C167_again_partial (fmt : ℚ → Line) (shown) (pm) (hpm : pm [] = .ok []) (title : Line)
    (els : List PElem) (h : AllPlain fmt shown els) (r : Line × List PElem)
    (hr : readCirc pm (circStr fmt shown title els) = .ok r) :
    (circStr fmt shown r.1 r.2).tail = (circStr fmt shown title els).tail := by
  obtain ⟨t, ht⟩ := C167_elements_partial fmt shown pm hpm title els h
  rw [ht] at hr
  cases hr
  rfl

/-- C167: the title never reads back: whatever it is, the circuit that was read has another one. -/
theorem C167_title_refuted (fmt : ℚ → Line) (shown) (pm) (title : Line) (els : List PElem)
    (r : Line × List PElem) (hr : readCirc pm (circStr fmt shown title els) = .ok r) :
    r.1 ≠ title := by
  have ht : r.1 = norm ('*' :: ' ' :: title) := by
    unfold readCirc readFile circStr at hr
    simp only at hr
    cases hrun : runLines {} (logical 1 (els.map (elemText fmt shown))) with
    | none => rw [hrun] at hr; simp at hr
    | some g =>
      rw [hrun] at hr
      simp only [Option.map_some] at hr
      cases hm : pm g.models with
      | error x => rw [hm] at hr; cases hr
      | ok ms =>
        rw [hm] at hr
        cases hp : parseAll ms (g.elements.map fun l => words l.1) [] with
        | error x =>
          simp only [bind, Except.bind, hp] at hr
          cases hr
        | ok es =>
          simp only [bind, Except.bind, hp] at hr
          cases hr
          rfl
  rw [ht]
  intro h
  have hs : Units.strip ('*' :: ' ' :: title) =
      ((title.reverse ++ [' ', '*']).dropWhile Char.isWhitespace).reverse := by
    unfold Units.strip
    rw [List.dropWhile_cons, if_neg (by decide)]
    simp
  unfold norm at h
  rw [hs] at h
  have hlen := congrArg List.length h
  simp only [List.length_map, List.length_reverse] at hlen
  cases htr : title.reverse with
  | nil =>
    have h0 : title = [] := by simpa using htr
    rw [h0] at hlen
    revert hlen
    decide
  | cons c m =>
    by_cases hc : c.isWhitespace = true
    · -- the last character of the stripped text is not a blank
      have hh := congrArg List.reverse h
      rw [← List.map_reverse, List.reverse_reverse, htr] at hh
      have hd := List.head?_dropWhile_not Char.isWhitespace (title.reverse ++ [' ', '*'])
      rw [htr] at hd
      cases hw : (c :: m ++ [' ', '*']).dropWhile Char.isWhitespace with
      | nil => rw [hw] at hh; cases hh
      | cons d u =>
        rw [hw] at hh hd
        simp only [List.map_cons, List.cons.injEq] at hh
        simp only [List.head?_cons] at hd
        have := (PrintAn.low_char d).1
        rw [hh.1, hc, hd] at this
        cases this
    · rw [htr, List.cons_append, List.dropWhile_cons, if_neg hc] at hlen
      have := congrArg List.length htr
      simp at this hlen
      omega

/-- C167: the models of a circuit are not printed: a diode, whose line alone parses back, is refused
when the text of its circuit is read. -/
theorem C167_models_refuted :
    ∃ (fmt : ℚ → Line) (e : PElem), (∃ models, parseElem models [] (elemLine fmt (fun _ => []) e) = .ok e) ∧
      ∀ pm, pm [] = .ok [] → ∀ title,
        readCirc pm (circStr fmt (fun _ => []) title [e]) = .error .parse := by
  refine ⟨fun _ => "1".toList, .D "d1".toList "1".toList "0".toList "dm".toList (some 1) none false,
    ⟨["dm".toList], by decide +kernel⟩, ?_⟩
  intro pm hpm title
  have hl : logical 1 [elemText (fun _ => "1".toList) (fun _ => [])
      (.D "d1".toList "1".toList "0".toList "dm".toList (some 1) none false)] =
      [("d1 1 0 dm area=1".toList, 2)] := by decide +kernel
  have hr : runLines {} [("d1 1 0 dm area=1".toList, 2)] =
      some { elements := [("d1 1 0 dm area=1".toList, 2)] } := by decide +kernel
  have hp : parseAll [] [words "d1 1 0 dm area=1".toList] [] = .error .parse := by decide +kernel
  unfold readCirc readFile circStr
  simp only [List.map_cons, List.map_nil]
  rw [hl, hr]
  simp only [Option.map_some, hpm, bind, Except.bind, List.map_cons, List.map_nil, hp]

/-- C167: texts with subcircuits that are not begun or not ended are refused. -/
theorem C167_open (pm : List (Line × Nat) → Except PErr (List Line)) (title : Line) :
    readCirc pm [title, ".ends".toList] = .error .parse ∧
      readCirc pm [title, ".subckt s a".toList, "r1 a 0 1".toList] = .error .parse := by
  have h1 : runLines {} (logical 1 [".ends".toList]) = none := by decide +kernel
  have h2 : runLines {} (logical 1 [".subckt s a".toList, "r1 a 0 1".toList]) = none := by decide +kernel
  constructor
  · rw [readCirc, readFile, h1]
    rfl
  · rw [readCirc, readFile, h2]
    rfl

/-- C167: capital letters are lost. -/
theorem C167_case_refuted :
    readCirc (fun _ => .ok []) (circStr (fun _ => "1".toList) (fun _ => []) "Divider".toList
      [.R "R1".toList "A".toList "0".toList 1]) =
      .ok ("* divider".toList, [.R "r1".toList "a".toList "0".toList 1]) := by decide +kernel

/-- C167: a circuit that meets the conditions. -/
def demo : List PElem :=
  [.L "l1".toList "a".toList "0".toList 1 none, .L "l2".toList "b".toList "0".toList 1 none,
   .K "k1".toList "l1".toList "l2".toList 1, .R "r1".toList "a".toList "b".toList 1,
   .E "e1".toList "b".toList "0".toList "a".toList "0".toList 1]

theorem demo_plain : AllPlain (fun _ => "1".toList) (fun _ => []) demo := by
  have hp : Printable (fun _ => "1".toList) 1 :=
    ⟨by decide +kernel, ⟨by decide, by decide⟩, by decide⟩
  have one : ∀ a e, RoundTrips [] a e → (ident e).head? = some (letter e) →
      (∀ x ∈ numbers e, x = 1) →
      (∀ w ∈ elemLine (fun _ => "1".toList) (fun _ => []) e,
        (w ≠ [] ∧ ∀ c ∈ w, c.isWhitespace = false) ∧ ∀ c ∈ w, c.toLower = c) →
      Plain (fun _ => "1".toList) (fun _ => []) a e := by
    intro a e h1 h2 h3 h4
    exact ⟨h1, h2, fun x hx => by rw [h3 x hx]; exact hp, h4⟩
  intro a e b hab
  rcases a with _ | ⟨x1, _ | ⟨x2, _ | ⟨x3, _ | ⟨x4, _ | ⟨x5, a⟩⟩⟩⟩⟩ <;>
    simp only [demo, List.nil_append, List.cons_append, List.cons.injEq] at hab
  · obtain ⟨rfl, -⟩ := hab
    exact one _ _ rfl rfl (by simp [numbers]) (by decide)
  · obtain ⟨rfl, rfl, -⟩ := hab
    exact one _ _ rfl rfl (by simp [numbers]) (by decide)
  · obtain ⟨rfl, rfl, rfl, -⟩ := hab
    exact one _ _ ⟨by decide, ⟨_, _, _, _, List.mem_cons_self⟩,
      ⟨_, _, _, _, List.mem_cons_of_mem _ List.mem_cons_self⟩⟩ rfl
      (by simp [numbers]) (by decide)
  · obtain ⟨rfl, rfl, rfl, rfl, -⟩ := hab
    exact one _ _ (by simp [RoundTrips]) rfl (by simp [numbers]) (by decide)
  · obtain ⟨rfl, rfl, rfl, rfl, rfl, -⟩ := hab
    exact one _ _ trivial rfl (by simp [numbers]) (by decide)
  · obtain ⟨_, _, _, _, _, h⟩ := hab
    simp at h

example : readCirc (fun _ => .ok []) (circStr (fun _ => "1".toList) (fun _ => []) "T".toList demo) =
    .ok ("* t".toList, demo) := by decide +kernel

end Verif.CircStr
