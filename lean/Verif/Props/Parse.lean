import Verif.Model.Parse
import Verif.Props.Small
import Mathlib.Tactic.Linarith

/-!
Properties C60 (printed lines parse back), C86 (trailing comments) and C87 (documented syntax of
elements).
-/

namespace Verif.Parse
open Verif.Small Verif.Netlist

/-! ### Words of a line -/

/-- A word: not empty, without blanks. -/
def IsWord (w : Line) : Prop := w ≠ [] ∧ ∀ c ∈ w, c.isWhitespace = false

theorem wordsAux_word (w : Line) (hw : ∀ c ∈ w, c.isWhitespace = false) (acc rest : Line) :
    wordsAux (w ++ rest) acc = wordsAux rest (w.reverse ++ acc) := by
  induction w generalizing acc with
  | nil => rfl
  | cons c w ih =>
    have hc := hw c (by simp)
    simp only [List.cons_append, wordsAux, hc]
    simp only [Bool.false_eq_true, if_false]
    rw [ih (fun x hx => hw x (List.mem_cons_of_mem _ hx))]
    simp

/-- C60: a line written as words separated by blanks is split into these words. -/
theorem C60_words (ws : List Line) (h : ∀ w ∈ ws, IsWord w) :
    words ((ws.intersperse [' ']).flatten) = ws := by
  unfold words
  induction ws with
  | nil => simp [wordsAux]
  | cons w ws ih =>
    have hw := h w (by simp)
    have hne : w.reverse ≠ [] := by simpa using hw.1
    cases ws with
    | nil =>
      have := wordsAux_word w hw.2 [] []
      simp only [List.append_nil] at this
      simp only [List.intersperse, List.flatten_cons, List.flatten_nil, List.append_nil]
      rw [this]
      cases hr : w.reverse with
      | nil => exact absurd hr hne
      | cons a l =>
        simp only [wordsAux]
        rw [← hr]; simp
    | cons w2 ws =>
      have ih' := ih (fun x hx => h x (List.mem_cons_of_mem _ hx))
      simp only [List.intersperse, List.flatten_cons] at ih' ⊢
      rw [wordsAux_word w hw.2, List.append_nil]
      have hb : Char.isWhitespace ' ' = true := by decide
      simp only [List.cons_append, List.nil_append, wordsAux, hb, if_true, if_neg hne]
      simp only [List.reverse_reverse]
      rw [ih']

/-! ### C60 -/

/-- The text of the number reads back as the number, and is a word without `=`. -/
structure Printable (fmt : ℚ → Line) (x : ℚ) : Prop where
  reads : Units.convertUnits (fmt x) = .ok x
  word : IsWord (fmt x)
  noeq : '=' ∉ fmt x

theorem strip_word (w : Line) (h : ∀ c ∈ w, c.isWhitespace = false) : Units.strip w = w := by
  have key : ∀ w : Line, (∀ c ∈ w, c.isWhitespace = false) →
      w.dropWhile Char.isWhitespace = w := by
    intro w h
    cases w with
    | nil => rfl
    | cons c w => rw [List.dropWhile_cons, if_neg (by simp [h c (by simp)])]
  unfold Units.strip
  rw [key w h, key w.reverse (fun c hc => h c (by simpa using hc)), List.reverse_reverse]

theorem param_num (l : Line) (fmt : ℚ → Line) (x : ℚ) (hp : Printable fmt x) (hl : '=' ∉ l)
    (hw : ∀ c ∈ l, c.isWhitespace = false) : param (l ++ '=' :: fmt x) = .ok (l, .num x) := by
  have hs : Units.strip (l ++ '=' :: fmt x) = l ++ '=' :: fmt x := by
    apply strip_word
    intro c hc
    rcases List.mem_append.1 hc with hc | hc
    · exact hw c hc
    · rcases List.mem_cons.1 hc with rfl | hc
      · decide
      · exact hp.word.2 c hc
  unfold param
  rw [C72_number l (fmt x) hl hp.noeq hs x hp.reads]

theorem units_fmt (fmt : ℚ → Line) (x : ℚ) (hp : Printable fmt x) : units (fmt x) = .ok x := by
  unfold units; rw [hp.reads]

/-- The letter that identifies the kind of an element. -/
def letter : PElem → Char
  | .R .. => 'r'
  | .C .. => 'c'
  | .L .. => 'l'
  | .K .. => 'k'
  | .V .. => 'v'
  | .I .. => 'i'
  | .E .. => 'e'
  | .G .. => 'g'
  | .F .. => 'f'
  | .H .. => 'h'
  | .S .. => 's'
  | .D .. => 'd'
  | .M .. => 'm'

def ident : PElem → Line
  | .R id .. => id
  | .C id .. => id
  | .L id .. => id
  | .K id .. => id
  | .V id .. => id
  | .I id .. => id
  | .E id .. => id
  | .G id .. => id
  | .F id .. => id
  | .H id .. => id
  | .S id .. => id
  | .D id .. => id
  | .M id .. => id

/-- The numbers of an element. -/
def numbers : PElem → List ℚ
  | .R _ _ _ v => [v]
  | .C _ _ _ v ic => v :: ic.toList
  | .L _ _ _ v ic => v :: ic.toList
  | .K _ _ _ k => [k]
  | .V _ _ _ dc ac _ => dc.toList ++ ac.toList
  | .I _ _ _ dc ac _ => dc.toList ++ ac.toList
  | .E _ _ _ _ _ v => [v]
  | .G _ _ _ _ _ v => [v]
  | .F _ _ _ _ v => [v]
  | .H _ _ _ _ v => [v]
  | .S .. => []
  | .D _ _ _ _ area ic _ => area.toList ++ ic.toList
  | .M _ _ _ _ _ _ w l m n => [w, l, m, n]

/-- The elements for which printing and parsing are inverse. -/
def RoundTrips (models : List Line) (els : List PElem) : PElem → Prop
  | .R _ _ _ v => v ≠ 0
  | .C _ _ _ _ ic => ic = none
  | .L _ _ _ _ ic => ic = none
  | .K _ l1 l2 _ => l1 ≠ l2 ∧ (∃ a b v ic, PElem.L l1 a b v ic ∈ els) ∧
      ∃ a b v ic, PElem.L l2 a b v ic ∈ els
  | .E .. => True
  | .G .. => True
  | .F .. => True
  | .H .. => True
  | .D _ _ _ model area _ off => model ∈ models ∧ area ≠ none ∧ off = false
  | _ => False

/-- C60: for resistors, capacitors and inductors without initial condition, couplings of known
inductors, the four controlled sources, and diodes that are not initially off, the printed line
parses back to the same element, for every format of numbers that can be read back. Missing: the
other elements, for which it is false (below); rounding of `%g`; ids with capital letters. -/
theorem C60_roundtrip_partial (fmt : ℚ → Line) (shown) (models : List Line) (els : List PElem)
    (e : PElem) (hr : RoundTrips models els e) (hid : (ident e).head? = some (letter e))
    (hn : ∀ x ∈ numbers e, Printable fmt x) :
    parseElem models els (elemLine fmt shown e) = .ok e := by
  have hcons : ∃ r, ident e = letter e :: r := by
    cases h : ident e with
    | nil => rw [h] at hid; cases hid
    | cons a r => rw [h] at hid; simp at hid; exact ⟨r, by rw [hid]⟩
  obtain ⟨r, hid'⟩ := hcons
  cases e with
  | R id n1 n2 v =>
    have hu := units_fmt fmt v (hn v (by simp [numbers]))
    simp only [RoundTrips] at hr
    simp only [ident, letter] at hid'
    subst hid'
    simp [parseElem, elemLine, parseR, surplus, hu, hr, bind, Except.bind]
  | C id n1 n2 v ic =>
    have hu := units_fmt fmt v (hn v (by simp [numbers]))
    simp only [RoundTrips] at hr
    simp only [ident, letter] at hid'
    subst hid' hr
    simp [parseElem, elemLine, parseC, parseIc, hu, bind, Except.bind]
  | L id n1 n2 v ic =>
    have hu := units_fmt fmt v (hn v (by simp [numbers]))
    simp only [RoundTrips] at hr
    simp only [ident, letter] at hid'
    subst hid' hr
    simp [parseElem, elemLine, parseL, parseIc, hu, bind, Except.bind]
  | K id l1 l2 k =>
    have hu := units_fmt fmt k (hn k (by simp [numbers]))
    simp only [RoundTrips] at hr
    simp only [ident, letter] at hid'
    subst hid'
    obtain ⟨hne, ⟨a, b, v, ic, h1⟩, ⟨a', b', v', ic', h2⟩⟩ := hr
    have hf : foundInductors els l1 l2 = true := by
      unfold foundInductors
      simp only [Bool.and_eq_true, List.any_eq_true]
      refine ⟨⟨_, h1, by simp⟩, ⟨_, h2, ?_⟩⟩
      simp [Ne.symm hne]
    simp [parseElem, elemLine, parseK, parseKvalue, surplus, hu, hf, bind, Except.bind]
  | E id n1 n2 sn1 sn2 v =>
    have hu := units_fmt fmt v (hn v (by simp [numbers]))
    simp only [ident, letter] at hid'
    subst hid'
    simp [parseElem, elemLine, parseE, surplus, hu, bind, Except.bind]
  | G id n1 n2 sn1 sn2 v =>
    have hu := units_fmt fmt v (hn v (by simp [numbers]))
    simp only [ident, letter] at hid'
    subst hid'
    simp [parseElem, elemLine, parseG, surplus, hu, bind, Except.bind]
  | F id n1 n2 src v =>
    have hu := units_fmt fmt v (hn v (by simp [numbers]))
    simp only [ident, letter] at hid'
    subst hid'
    simp [parseElem, elemLine, parseF, surplus, hu, bind, Except.bind]
  | H id n1 n2 src v =>
    have hu := units_fmt fmt v (hn v (by simp [numbers]))
    simp only [ident, letter] at hid'
    subst hid'
    simp [parseElem, elemLine, parseH, surplus, hu, bind, Except.bind]
  | D id n1 n2 model area ic off =>
    simp only [RoundTrips] at hr
    obtain ⟨hm, ha, ho⟩ := hr
    obtain ⟨a, rfl⟩ := Option.ne_none_iff_exists'.1 ha
    simp only [ident, letter] at hid'
    subst hid' ho
    have hpa := param_num "area".toList fmt a (hn a (by simp [numbers])) (by decide +kernel)
      (by decide +kernel)
    have ea : "area=".toList ++ fmt a = "area".toList ++ '=' :: fmt a := by simp
    have ei : ∀ x, "ic=".toList ++ fmt x = "ic".toList ++ '=' :: fmt x := by intro x; simp
    have hne1 : ("area".toList ++ '=' :: fmt a).head? ≠ some '*' := by simp
    have hne2 : ∀ x, ("ic".toList ++ '=' :: fmt x).head? ≠ some '*' := by intro x; simp
    have hl : dLoop (List.drop 4 (elemLine fmt shown (.D ('d' :: r) n1 n2 model (some a) ic false))) {} =
        .ok { area := some a, ic := ic, off := false } := by
      cases ic with
      | none =>
        simp only [elemLine, Option.getD_some, ea]
        simp only [List.cons_append, List.nil_append, List.append_nil, List.drop_succ_cons,
          List.drop_zero, Bool.false_eq_true, if_false]
        unfold dLoop
        rw [if_neg (by simpa using hne1)]
        rw [hpa]
        simp [bind, Except.bind, unitsVal, dLoop]
      | some x =>
        have hpi := param_num "ic".toList fmt x (hn x (by simp [numbers])) (by decide +kernel)
          (by decide +kernel)
        simp only [elemLine, Option.getD_some, ea, ei]
        simp only [List.cons_append, List.nil_append, List.append_nil, List.drop_succ_cons,
          List.drop_zero, Bool.false_eq_true, if_false]
        unfold dLoop
        rw [if_neg (by simpa using hne1), hpa]
        simp only [bind, Except.bind, unitsVal, if_true]
        unfold dLoop
        rw [if_neg (by simpa using hne2 x), hpi]
        simp [bind, Except.bind, unitsVal, dLoop]
    have hshape : elemLine fmt shown (.D ('d' :: r) n1 n2 model (some a) ic false) =
        ('d' :: r) :: n1 :: n2 :: model ::
          (elemLine fmt shown (.D ('d' :: r) n1 n2 model (some a) ic false)).drop 4 := by
      simp [elemLine]
    rw [hshape] at hl ⊢
    generalize (elemLine fmt shown (.D ('d' :: r) n1 n2 model (some a) ic false)).drop 4 = tl at hl ⊢
    simp only [List.drop_succ_cons, List.drop_zero] at hl
    simp [parseElem, parseD, hl, hm, bind, Except.bind]
  | V _ _ _ _ _ _ => exact absurd hr id
  | I _ _ _ _ _ _ => exact absurd hr id
  | S _ _ _ _ _ _ => exact absurd hr id
  | M _ _ _ _ _ _ _ _ _ _ => exact absurd hr id

/-- C60: every printed line of a voltage or current source with a DC value, of a switch or of a
MOS transistor is refused by the parser; an initial condition of a capacitor or an inductor is
lost; a diode that is initially off raises `TypeError`. -/
theorem C60_roundtrip_refuted (fmt : ℚ → Line) (shown) (models : List Line) (els : List PElem)
    (r n1 n2 n3 n4 md : Line) (x y a b c d : ℚ) (ac fn)
    (hx : Printable fmt x) (ha : Printable fmt a) :
    parseElem models els (elemLine fmt shown (.V ('v' :: r) n1 n2 (some x) ac fn)) = .error .parse ∧
    parseElem models els (elemLine fmt shown (.I ('i' :: r) n1 n2 (some x) ac fn)) = .error .parse ∧
    parseElem models els (elemLine fmt shown (.S ('s' :: r) n1 n2 n3 n4 md)) = .error .parse ∧
    parseElem models els (elemLine fmt shown (.M ('m' :: r) n1 n2 n3 n4 md a b c d)) = .error .parse ∧
    parseElem models els (elemLine fmt shown (.C ('c' :: r) n1 n2 x (some y))) =
      .ok (.C ('c' :: r) n1 n2 x none) ∧
    parseElem models els (elemLine fmt shown (.L ('l' :: r) n1 n2 x (some y))) =
      .ok (.L ('l' :: r) n1 n2 x none) ∧
    parseElem models els (elemLine fmt shown (.D ('d' :: r) n1 n2 md (some a) none true)) =
      .error .type := by
  have hvd : param "type=vdc".toList = .ok ("type".toList, .text "vdc".toList) := by decide +kernel
  have hid : param "type=idc".toList = .ok ("type".toList, .text "idc".toList) := by decide +kernel
  have hty : param "type=n".toList = .ok ("type".toList, .text "n".toList) := by decide +kernel
  have hof : param "off=1".toList = .ok ("off".toList, .num 1) := by decide +kernel
  have hva := param_num "value".toList fmt x hx (by decide +kernel) (by decide +kernel)
  have hpa := param_num "area".toList fmt a ha (by decide +kernel) (by decide +kernel)
  have ea : "area=".toList ++ fmt a = "area".toList ++ '=' :: fmt a := by simp
  have ev : "value=".toList ++ fmt x = "value".toList ++ '=' :: fmt x := by simp
  have hu := units_fmt fmt x hx
  refine ⟨?_, ?_, ?_, ?_, ?_, ?_, ?_⟩
  · simp only [elemLine, ev]
    simp only [List.cons_append, List.nil_append, parseElem, parseV, List.length_cons,
      List.drop_succ_cons, List.drop_zero]
    rw [if_neg (by omega)]
    unfold srcLoop
    rw [if_neg (by decide +kernel), hvd]
    simp only [bind, Except.bind, if_true, true_or]
    simp only [Option.isSome_none, Bool.false_eq_true, if_false]
    unfold srcLoop
    rw [if_neg (by simp), hva]
    simp only [bind, Except.bind]
    rw [if_neg (by decide +kernel), if_neg (by decide +kernel), if_neg (by decide +kernel)]
  · simp only [elemLine, ev]
    simp only [List.cons_append, List.nil_append, parseElem, parseI, List.length_cons,
      List.drop_succ_cons, List.drop_zero]
    rw [if_neg (by omega)]
    unfold srcLoop
    rw [if_neg (by decide +kernel), hid]
    simp only [bind, Except.bind, if_true, true_or]
    simp only [Option.isSome_none, Bool.false_eq_true, if_false]
    unfold srcLoop
    rw [if_neg (by simp), hva]
    simp only [bind, Except.bind]
    rw [if_neg (by decide +kernel), if_neg (by decide +kernel), if_neg (by decide +kernel)]
  · simp [elemLine, parseElem, parseS, surplus, commentAt]
  · simp only [elemLine, parseElem, parseM, List.length_cons, List.drop_succ_cons, List.drop_zero]
    rw [if_neg (by omega)]
    unfold mLoop
    rw [if_neg (by decide +kernel), hty]
    simp only [bind, Except.bind]
    rw [if_neg (by decide +kernel), if_neg (by decide +kernel), if_neg (by decide +kernel),
      if_neg (by decide +kernel)]
  · simp [parseElem, elemLine, parseC, parseIc, hu, bind, Except.bind]
  · simp [parseElem, elemLine, parseL, parseIc, hu, bind, Except.bind]
  · simp only [elemLine, Option.getD_some, ea]
    simp only [List.cons_append, List.nil_append, List.append_nil, if_true, parseElem, parseD,
      List.length_cons, List.drop_succ_cons, List.drop_zero]
    rw [if_neg (by omega)]
    unfold dLoop
    rw [if_neg (by simp), hpa]
    simp only [bind, Except.bind, unitsVal, if_true]
    unfold dLoop
    rw [if_neg (by decide +kernel), hof]
    simp only [bind, Except.bind, unitsVal]
    rw [if_neg (by decide +kernel), if_neg (by decide +kernel), if_neg (by decide +kernel)]
    simp

/-! ### C86 -/

/-- A word that starts a comment. -/
abbrev IsComment (w : Line) : Prop := w.head? = some '*'

theorem length_of_surplus {t : List Line} {n : Nat} (hc : ∀ w ∈ t, ¬ IsComment w)
    (h : surplus t n n = none) : t.length = n := by
  unfold surplus at h
  by_contra hne
  by_cases h1 : t.length < n
  · rw [if_pos h1] at h; cases h
  · rw [if_neg h1, if_pos (by omega)] at h
    have hl : n < t.length := by omega
    have : commentAt t n = some (t[n].head? == some '*') := by
      simp [commentAt, List.getElem?_eq_getElem hl]
    rw [this] at h
    have hw := hc t[n] (List.getElem_mem hl)
    simp only at h
    split at h
    · rename_i hh
      exact hw (by simpa using hh)
    · cases h

theorem surplus_comment {t : List Line} {n : Nat} (hl : t.length = n) {c : Line}
    (hc : IsComment c) (rest : List Line) : surplus (t ++ c :: rest) n n = none := by
  unfold surplus commentAt
  simp [hl, List.getElem?_append_right, hc]

theorem getElem!_append {t : List Line} {k : Nat} (hk : k < t.length) (r : List Line) :
    (t ++ r)[k]! = t[k]! := by
  simp [getElem!_def, List.getElem?_append_left hk]

theorem dLoop_comment (ws : List Line) (hws : ∀ w ∈ ws, ¬ IsComment w) (c : Line)
    (hc : IsComment c) (rest : List Line) (s : DState) : dLoop (ws ++ c :: rest) s = dLoop ws s := by
  induction ws generalizing s with
  | nil => simp [dLoop, hc]
  | cons w ws ih =>
    have ih' := ih (fun x hx => hws x (List.mem_cons_of_mem _ hx))
    simp only [List.cons_append, dLoop, ih']

theorem mLoop_comment (ws : List Line) (hws : ∀ w ∈ ws, ¬ IsComment w) (c : Line)
    (hc : IsComment c) (rest : List Line) (s : MState) : mLoop (ws ++ c :: rest) s = mLoop ws s := by
  induction ws generalizing s with
  | nil => simp [mLoop, hc]
  | cons w ws ih =>
    have ih' := ih (fun x hx => hws x (List.mem_cons_of_mem _ hx))
    simp only [List.cons_append, mLoop, ih']

theorem srcLoop_fn (dc ac : Line) (st : Bool) (fuel : Nat) (ws : List Line) (s s' : SrcState)
    (h : srcLoop dc ac st fuel ws s = .ok s') (hf : s'.fn = none) : s.fn = none := by
  induction fuel generalizing ws s with
  | zero => simp only [srcLoop, Except.ok.injEq] at h; rw [h]; exact hf
  | succ fuel ih =>
    cases ws with
    | nil => simp only [srcLoop, Except.ok.injEq] at h; rw [h]; exact hf
    | cons w ws =>
      unfold srcLoop at h
      split at h
      · simp only [Except.ok.injEq] at h; rw [h]; exact hf
      · cases hp : param w with
        | error e => rw [hp] at h; cases h
        | ok lv =>
          obtain ⟨l, v⟩ := lv
          rw [hp] at h
          simp only [bind, Except.bind] at h
          split at h
          · cases v with
            | text ty =>
              simp only at h
              split at h
              · split at h
                · cases h
                · exact ih _ _ h
              · split at h
                · split at h
                  · cases h
                  · cases hf2 : timeFunction ty (ws.take (paramNumber ty)) with
                    | error e => rw [hf2] at h; cases h
                    | ok f =>
                      rw [hf2] at h
                      simp only at h
                      split at h
                      · cases h
                      · have := ih _ _ h
                        cases this
                · cases h
            | num _ => cases h
            | bool _ => cases h
          · split at h
            · cases hu : unitsVal v with
              | error e => rw [hu] at h; cases h
              | ok x => rw [hu] at h; exact ih ws { s with dc := some x } h
            · split at h
              · cases hu : unitsVal v with
                | error e => rw [hu] at h; cases h
                | ok x => rw [hu] at h; exact ih ws { s with ac := some x } h
              · cases h

theorem srcLoop_comment (dc ac : Line) (st : Bool) (c : Line) (hc : IsComment c)
    (rest : List Line) (ws : List Line) (hws : ∀ w ∈ ws, ¬ IsComment w) (fuel fuel' : Nat)
    (s s' : SrcState) (h1 : ws.length ≤ fuel) (h2 : ws.length ≤ fuel')
    (h : srcLoop dc ac st fuel ws s = .ok s') (hf : s'.fn = none) :
    srcLoop dc ac st fuel' (ws ++ c :: rest) s = .ok s' := by
  induction ws generalizing fuel fuel' s with
  | nil =>
    have hs : s = s' := by
      cases fuel <;> simpa [srcLoop] using h
    cases fuel' with
    | zero => simp [srcLoop, hs]
    | succ f => simp [srcLoop, hc, hs]
  | cons w ws ih =>
    cases fuel with
    | zero => simp at h1
    | succ fuel =>
    cases fuel' with
    | zero => simp at h2
    | succ fuel' =>
      have ih' := ih (fun x hx => hws x (List.mem_cons_of_mem _ hx)) fuel fuel'
      have h1' : ws.length ≤ fuel := by simpa using h1
      have h2' : ws.length ≤ fuel' := by simpa using h2
      have hw := hws w (by simp)
      rw [List.cons_append]
      unfold srcLoop at h ⊢
      rw [if_neg hw] at h ⊢
      cases hp : param w with
      | error e => rw [hp] at h; cases h
      | ok lv =>
        obtain ⟨l, v⟩ := lv
        rw [hp] at h
        simp only [bind, Except.bind] at h ⊢
        by_cases hl : l = "type".toList
        · rw [if_pos hl] at h ⊢
          cases v with
          | text ty =>
            simp only at h ⊢
            by_cases hty : ty = dc ∨ ty = ac
            · rw [if_pos hty] at h ⊢
              by_cases hfn : s.fn.isSome
              · rw [if_pos hfn] at h; cases h
              · rw [if_neg hfn] at h ⊢
                exact ih' _ h1' h2' h
            · rw [if_neg hty] at h
              exfalso
              split at h
              · split at h
                · cases h
                · cases hf2 : timeFunction ty (ws.take (paramNumber ty)) with
                  | error e => rw [hf2] at h; cases h
                  | ok f =>
                    rw [hf2] at h
                    simp only at h
                    split at h
                    · cases h
                    · have := srcLoop_fn _ _ _ _ _ _ _ h hf
                      cases this
              · cases h
          | num _ => cases h
          | bool _ => cases h
        · rw [if_neg hl] at h ⊢
          by_cases hd : l = dc
          · rw [if_pos hd] at h ⊢
            cases hu : unitsVal v with
            | error e => rw [hu] at h; cases h
            | ok x => rw [hu] at h; exact ih' _ h1' h2' h
          · rw [if_neg hd] at h ⊢
            by_cases ha : l = ac
            · rw [if_pos ha] at h ⊢
              cases hu : unitsVal v with
              | error e => rw [hu] at h; cases h
              | ok x => rw [hu] at h; exact ih' _ h1' h2' h
            · rw [if_neg ha] at h; cases h

/-- The elements whose line may carry a comment: all but inductors, couplings, capacitors with an
initial condition and sources with a time function. -/
def Commentable : PElem → Prop
  | .C _ _ _ _ ic => ic = none
  | .L .. => False
  | .K .. => False
  | .V _ _ _ _ _ fn => fn = none
  | .I _ _ _ _ _ fn => fn = none
  | _ => True

theorem drop_append_comment {t : List Line} {k : Nat} (hk : k ≤ t.length) (r : List Line) :
    (t ++ r).drop k = t.drop k ++ r := by
  rw [List.drop_append, Nat.sub_eq_zero_of_le hk, List.drop_zero]

/-- C86: for these elements a comment at the end of the line (a word that starts with `*` and
whatever follows) changes nothing. Missing: the other elements, for which it is false. -/
theorem C86_comment_partial (models : List Line) (els : List PElem) (t : List Line) (e : PElem)
    (ht : ∀ w ∈ t, ¬ IsComment w) (h : parseElem models els t = .ok e) (he : Commentable e)
    (c : Line) (hc : IsComment c) (rest : List Line) :
    parseElem models els (t ++ c :: rest) = .ok e := by
  have hsur : ∀ {n : Nat}, surplus t n n = none → t.length = n ∧
      surplus (t ++ c :: rest) n n = none := fun hs =>
    ⟨length_of_surplus ht hs, surplus_comment (length_of_surplus ht hs) hc rest⟩
  have hdrop : ∀ k, ∀ w ∈ t.drop k, ¬ IsComment w := fun k w hw => ht w (List.mem_of_mem_drop hw)
  cases t with
  | nil => simp [parseElem] at h
  | cons w0 t0 =>
  cases w0 with
  | nil => simp [parseElem] at h
  | cons l w0 =>
  have hR : ∀ e, parseR ((l :: w0) :: t0) = .ok e → parseR (((l :: w0) :: t0) ++ c :: rest) = .ok e := by
    intro e h
    unfold parseR at h ⊢
    cases hs : surplus ((l :: w0) :: t0) 4 4 with
    | some x => rw [hs] at h; cases h
    | none =>
      obtain ⟨hl, hs'⟩ := hsur hs
      rw [hs] at h
      rw [hs', getElem!_append (by omega), getElem!_append (by omega), getElem!_append (by omega),
        getElem!_append (by omega)]
      exact h
  have hE : ∀ e, parseE ((l :: w0) :: t0) = .ok e → parseE (((l :: w0) :: t0) ++ c :: rest) = .ok e := by
    intro e h
    unfold parseE at h ⊢
    cases hs : surplus ((l :: w0) :: t0) 6 6 with
    | some x => rw [hs] at h; cases h
    | none =>
      obtain ⟨hl, hs'⟩ := hsur hs
      rw [hs] at h
      rw [hs', getElem!_append (by omega), getElem!_append (by omega), getElem!_append (by omega),
        getElem!_append (by omega), getElem!_append (by omega), getElem!_append (by omega)]
      exact h
  have hG : ∀ e, parseG ((l :: w0) :: t0) = .ok e → parseG (((l :: w0) :: t0) ++ c :: rest) = .ok e := by
    intro e h
    unfold parseG at h ⊢
    cases hs : surplus ((l :: w0) :: t0) 6 6 with
    | some x => rw [hs] at h; cases h
    | none =>
      obtain ⟨hl, hs'⟩ := hsur hs
      rw [hs] at h
      rw [hs', getElem!_append (by omega), getElem!_append (by omega), getElem!_append (by omega),
        getElem!_append (by omega), getElem!_append (by omega), getElem!_append (by omega)]
      exact h
  have hH : ∀ e, parseH ((l :: w0) :: t0) = .ok e → parseH (((l :: w0) :: t0) ++ c :: rest) = .ok e := by
    intro e h
    unfold parseH at h ⊢
    cases hs : surplus ((l :: w0) :: t0) 5 5 with
    | some x => rw [hs] at h; cases h
    | none =>
      obtain ⟨hl, hs'⟩ := hsur hs
      rw [hs] at h
      rw [hs', getElem!_append (by omega), getElem!_append (by omega), getElem!_append (by omega),
        getElem!_append (by omega), getElem!_append (by omega)]
      exact h
  have hF : ∀ e, parseF ((l :: w0) :: t0) = .ok e → parseF (((l :: w0) :: t0) ++ c :: rest) = .ok e := by
    intro e h
    unfold parseF at h ⊢
    cases hs : surplus ((l :: w0) :: t0) 5 5 with
    | some x => rw [hs] at h; cases h
    | none =>
      obtain ⟨hl, hs'⟩ := hsur hs
      rw [hs] at h
      rw [hs', getElem!_append (by omega), getElem!_append (by omega), getElem!_append (by omega),
        getElem!_append (by omega), getElem!_append (by omega)]
      exact h
  have hS : ∀ e, parseS models ((l :: w0) :: t0) = .ok e →
      parseS models (((l :: w0) :: t0) ++ c :: rest) = .ok e := by
    intro e h
    unfold parseS at h ⊢
    cases hs : surplus ((l :: w0) :: t0) 6 6 with
    | some x => rw [hs] at h; cases h
    | none =>
      obtain ⟨hl, hs'⟩ := hsur hs
      rw [hs] at h
      rw [hs', getElem!_append (by omega), getElem!_append (by omega), getElem!_append (by omega),
        getElem!_append (by omega), getElem!_append (by omega), getElem!_append (by omega)]
      exact h
  have hD : ∀ e, parseD models ((l :: w0) :: t0) = .ok e →
      parseD models (((l :: w0) :: t0) ++ c :: rest) = .ok e := by
    intro e h
    unfold parseD at h ⊢
    by_cases hl : ((l :: w0) :: t0).length < 4
    · rw [if_pos hl] at h; cases h
    · rw [if_neg hl] at h
      rw [if_neg (by simp at hl ⊢; omega), drop_append_comment (by omega),
        dLoop_comment _ (hdrop 4) c hc, getElem!_append (by omega), getElem!_append (by omega),
        getElem!_append (by omega), getElem!_append (by omega)]
      exact h
  have hM : ∀ e, parseM models ((l :: w0) :: t0) = .ok e →
      parseM models (((l :: w0) :: t0) ++ c :: rest) = .ok e := by
    intro e h
    unfold parseM at h ⊢
    by_cases hl : ((l :: w0) :: t0).length < 6
    · rw [if_pos hl] at h; cases h
    · rw [if_neg hl] at h
      rw [if_neg (by simp at hl ⊢; omega), drop_append_comment (by omega),
        mLoop_comment _ (hdrop 6) c hc, getElem!_append (by omega), getElem!_append (by omega),
        getElem!_append (by omega), getElem!_append (by omega), getElem!_append (by omega),
        getElem!_append (by omega)]
      exact h
  have hV : ∀ e, Commentable e → parseV ((l :: w0) :: t0) = .ok e →
      parseV (((l :: w0) :: t0) ++ c :: rest) = .ok e := by
    intro e he h
    unfold parseV at h ⊢
    by_cases hl : ((l :: w0) :: t0).length < 3
    · rw [if_pos hl] at h; cases h
    · rw [if_neg hl] at h
      rw [if_neg (by simp at hl ⊢; omega), drop_append_comment (by omega),
        getElem!_append (by omega), getElem!_append (by omega), getElem!_append (by omega)]
      cases hs : srcLoop "vdc".toList "vac".toList false ((l :: w0) :: t0).length
          (((l :: w0) :: t0).drop 3) {} with
      | error x => rw [hs] at h; cases h
      | ok s =>
        rw [hs] at h
        simp only [bind, Except.bind] at h
        split at h
        · cases h
        · rename_i hn
          have hfn : s.fn = none := by
            simp only [Except.ok.injEq] at h; rw [← h] at he; exact he
          rw [srcLoop_comment _ _ _ c hc rest _ (hdrop 3) _ _ _ _ (by simp; omega)
            (by simp; omega) hs hfn]
          simp only [bind, Except.bind]
          rw [if_neg hn]; exact h
  have hI : ∀ e, Commentable e → parseI ((l :: w0) :: t0) = .ok e →
      parseI (((l :: w0) :: t0) ++ c :: rest) = .ok e := by
    intro e he h
    unfold parseI at h ⊢
    by_cases hl : ((l :: w0) :: t0).length < 3
    · rw [if_pos hl] at h; cases h
    · rw [if_neg hl] at h
      rw [if_neg (by simp at hl ⊢; omega), drop_append_comment (by omega),
        getElem!_append (by omega), getElem!_append (by omega), getElem!_append (by omega)]
      cases hs : srcLoop "idc".toList "iac".toList true ((l :: w0) :: t0).length
          (((l :: w0) :: t0).drop 3) {} with
      | error x => rw [hs] at h; cases h
      | ok s =>
        rw [hs] at h
        simp only [bind, Except.bind] at h
        split at h
        · cases h
        · rename_i hn
          have hfn : s.fn = none := by
            simp only [Except.ok.injEq] at h; rw [← h] at he; exact he
          rw [srcLoop_comment _ _ _ c hc rest _ (hdrop 3) _ _ _ _ (by simp; omega)
            (by simp; omega) hs hfn]
          simp only [bind, Except.bind]
          rw [if_neg hn]; exact h
  have hC : ∀ e, Commentable e → parseC ((l :: w0) :: t0) = .ok e →
      parseC (((l :: w0) :: t0) ++ c :: rest) = .ok e := by
    intro e he h
    unfold parseC at h ⊢
    have hno : ∀ k, commentAt ((l :: w0) :: t0) k ≠ some true := by
      intro k hk
      unfold commentAt at hk
      simp only [Option.map_eq_some_iff] at hk
      obtain ⟨w, hw, hw2⟩ := hk
      exact ht w (List.mem_of_getElem? hw) (by simpa using hw2)
    split at h
    · cases h
    · rename_i hl
      have hl' : ¬ ((l :: w0) :: t0).length < 4 ∧ ¬ ((l :: w0) :: t0).length > 5 := by
        constructor
        · exact fun hh => hl (Or.inl hh)
        · exact fun hh => hl (Or.inr ⟨hh, hno 5, hno 4⟩)
      by_cases h5 : ((l :: w0) :: t0).length = 5
      · exfalso
        unfold parseIc at h
        rw [if_pos ⟨h5, hno 4⟩] at h
        cases hp : param ((l :: w0) :: t0)[4]! with
        | error x => rw [hp] at h; cases h
        | ok lv =>
          rw [hp] at h
          simp only [bind, Except.bind] at h
          by_cases hlv : lv.1 = "ic".toList
          · rw [if_pos hlv] at h
            cases hu : unitsVal lv.2 with
            | error x => rw [hu] at h; cases h
            | ok x =>
              rw [hu] at h
              simp only [Functor.map, Except.map] at h
              cases hv : units ((l :: w0) :: t0)[3]! with
              | error x => rw [hv] at h; cases h
              | ok y =>
                rw [hv] at h
                simp only [Except.ok.injEq] at h
                rw [← h] at he
                cases he
          · rw [if_neg hlv] at h; cases h
      · have h4 : ((l :: w0) :: t0).length = 4 := by omega
        have hcm : commentAt (((l :: w0) :: t0) ++ c :: rest) 4 = some true := by
          unfold commentAt
          rw [List.getElem?_append_right (by omega), h4]
          simp [hc]
        rw [if_neg (by
          rintro (hh | ⟨_, _, hh⟩)
          · rw [List.length_append] at hh; omega
          · exact hh hcm)]
        have i1 : parseIc (((l :: w0) :: t0) ++ c :: rest) = .ok none := by
          unfold parseIc; rw [if_neg (fun hh => hh.2 hcm)]
        have i2 : parseIc ((l :: w0) :: t0) = .ok none := by
          unfold parseIc; rw [if_neg (fun hh => by omega)]
        rw [i2] at h
        rw [i1, getElem!_append (by omega), getElem!_append (by omega), getElem!_append (by omega),
          getElem!_append (by omega)]
        exact h
  have hL : ∀ e, Commentable e → parseL ((l :: w0) :: t0) ≠ .ok e := by
    intro e he h
    unfold parseL at h
    split at h
    · cases h
    · split at h
      · cases h
      · cases hp : parseIc ((l :: w0) :: t0) with
        | error x => rw [hp] at h; cases h
        | ok ic =>
          rw [hp] at h
          cases hv : units ((l :: w0) :: t0)[3]! with
          | error x => rw [hv] at h; cases h
          | ok y => rw [hv] at h; cases h; exact he
  have hK : ∀ e, Commentable e → parseK els ((l :: w0) :: t0) ≠ .ok e := by
    intro e he h
    unfold parseK at h
    split at h
    · cases h
    · cases hv : parseKvalue ((l :: w0) :: t0)[3]! with
      | error x => rw [hv] at h; cases h
      | ok y =>
        rw [hv] at h
        simp only [bind, Except.bind] at h
        split at h
        · cases h; exact he
        · cases h
  unfold parseElem at h ⊢
  simp only [List.cons_append] at *
  split at h
  all_goals first
    | cases h
    | (rename_i heq; cases heq; simp only; first
        | exact hR _ h | exact hE _ h | exact hG _ h | exact hH _ h | exact hF _ h | exact hS _ h
        | exact hD _ h | exact hM _ h | exact hV _ he h | exact hI _ he h | exact hC _ he h
        | exact absurd h (hL _ he) | exact absurd h (hK _ he))

/-- The words of a line written as text (used in examples). -/
def line (s : String) : List Line := words s.toList

/-- C86: the comment makes the parser forget an initial condition without a word, refuse the
line, or raise `IndexError`; after a time function with parameters left out it is read as
parameters. -/
theorem C86_comment_refuted :
    (parseElem [] [] (line "c1 1 0 1u ic=2") = .ok (.C "c1".toList "1".toList "0".toList (1/1000000) (some 2)) ∧
      parseElem [] [] (line "c1 1 0 1u ic=2 *start charged") =
        .ok (.C "c1".toList "1".toList "0".toList (1/1000000) none)) ∧
    ((parseElem [] [] (line "l1 1 0 1u")).isOk ∧
      parseElem [] [] (line "l1 1 0 1u * a choke coil") = .error .parse ∧
      parseElem [] [] (line "l1 1 0 1u * coil") = .error .index) ∧
    ((parseElem [] [.L ['l', '1'] ['1'] ['0'] 1 none, .L ['l', '2'] ['2'] ['0'] 1 none]
        (line "k1 l1 l2 1")).isOk ∧
      parseElem [] [.L ['l', '1'] ['1'] ['0'] 1 none, .L ['l', '2'] ['2'] ['0'] 1 none]
        (line "k1 l1 l2 1 *coupling") = .error .index) ∧
    ((parseElem [] [] (line "v1 1 0 type=sin 0 1 1k")).isOk ∧
      parseElem [] [] (line "v1 1 0 type=sin 0 1 1k * our mains supply") = .error .parse) := by
  decide +kernel

example : parseElem [] [] (line "r1 1 0 1k") = .ok (.R "r1".toList "1".toList "0".toList 1000) ∧
    parseElem [] [] (line "r1 1 0 1k" ++ line "* load") =
      .ok (.R "r1".toList "1".toList "0".toList 1000) ∧
    parseElem ["ch".toList] [] (line "m1 d g s 0 ch w=1u l=2u *x y=1") =
      parseElem ["ch".toList] [] (line "m1 d g s 0 ch w=1u l=2u") := by decide +kernel

example : Printable (fun _ => "5".toList) 5 ∧
    parseElem ["dm".toList] [] (elemLine (fun _ => "5".toList) (fun _ => [])
      (.D "d1".toList "1".toList "0".toList "dm".toList (some 5) (some 5) false)) =
      .ok (.D "d1".toList "1".toList "0".toList "dm".toList (some 5) (some 5) false) := by
  refine ⟨⟨by decide +kernel, ⟨by decide, by decide +kernel⟩, by decide⟩, by decide +kernel⟩

example : ∀ w ∈ line "d1 1 0 dm area=5", IsWord w := by
  unfold IsWord; decide +kernel

/-! ### C87 -/

/-- C87: the lines described in the documentation are accepted and give the element described:
passive elements, couplings of known inductors, DC sources with and without an AC value,
controlled sources, switches, diodes with `AREA` and `IC`, transistors. Missing: the time
functions and the forms below. -/
theorem C87_accepted_partial (models : List Line) (els : List PElem)
    (r n1 n2 n3 n4 v md : Line) (x : ℚ) (hv : Units.convertUnits v = .ok x)
    (hmd : md ∈ models) :
    (x ≠ 0 → parseElem models els ['r' :: r, n1, n2, v] = .ok (.R ('r' :: r) n1 n2 x)) ∧
    parseElem models els ['c' :: r, n1, n2, v] = .ok (.C ('c' :: r) n1 n2 x none) ∧
    parseElem models els ['l' :: r, n1, n2, v] = .ok (.L ('l' :: r) n1 n2 x none) ∧
    parseElem models els ['e' :: r, n1, n2, n3, n4, v] = .ok (.E ('e' :: r) n1 n2 n3 n4 x) ∧
    parseElem models els ['g' :: r, n1, n2, n3, n4, v] = .ok (.G ('g' :: r) n1 n2 n3 n4 x) ∧
    parseElem models els ['f' :: r, n1, n2, n3, v] = .ok (.F ('f' :: r) n1 n2 n3 x) ∧
    parseElem models els ['h' :: r, n1, n2, n3, v] = .ok (.H ('h' :: r) n1 n2 n3 x) ∧
    parseElem models els ['s' :: r, n1, n2, n3, n4, md] = .ok (.S ('s' :: r) n1 n2 n3 n4 md) ∧
    parseElem models els ['d' :: r, n1, n2, md] = .ok (.D ('d' :: r) n1 n2 md none none false) := by
  have hu : units v = .ok x := by unfold units; rw [hv]
  refine ⟨fun hx => ?_, ?_, ?_, ?_, ?_, ?_, ?_, ?_, ?_⟩
  · simp [parseElem, parseR, surplus, hu, hx, bind, Except.bind]
  · simp [parseElem, parseC, parseIc, hu, bind, Except.bind]
  · simp [parseElem, parseL, parseIc, hu, bind, Except.bind]
  · simp [parseElem, parseE, surplus, hu, bind, Except.bind]
  · simp [parseElem, parseG, surplus, hu, bind, Except.bind]
  · simp [parseElem, parseF, surplus, hu, bind, Except.bind]
  · simp [parseElem, parseH, surplus, hu, bind, Except.bind]
  · simp [parseElem, parseS, surplus, hmd]
  · simp [parseElem, parseD, dLoop, hmd, bind, Except.bind]

/-- C87: parameters with names: an initial condition of a capacitor or inductor, the value of a
source (with its AC value), area and initial condition of a diode in either order, and the four
parameters of a transistor. `w`, `w'`: texts that read as the numbers `x`, `y`. -/
theorem C87_parameters_partial (models : List Line) (els : List PElem) (fmt : ℚ → Line)
    (r n1 n2 n3 n4 md : Line) (x y : ℚ) (hx : Printable fmt x) (hy : Printable fmt y)
    (hmd : md ∈ models) :
    parseElem models els ['c' :: r, n1, n2, fmt x, "ic".toList ++ '=' :: fmt y] =
      .ok (.C ('c' :: r) n1 n2 x (some y)) ∧
    parseElem models els ['l' :: r, n1, n2, fmt x, "ic".toList ++ '=' :: fmt y] =
      .ok (.L ('l' :: r) n1 n2 x (some y)) ∧
    parseElem models els ['v' :: r, n1, n2, "type=vdc".toList, "vdc".toList ++ '=' :: fmt x] =
      .ok (.V ('v' :: r) n1 n2 (some x) none none) ∧
    parseElem models els ['i' :: r, n1, n2, "type=idc".toList, "idc".toList ++ '=' :: fmt x] =
      .ok (.I ('i' :: r) n1 n2 (some x) none none) ∧
    parseElem models els ['v' :: r, n1, n2, "type=vdc".toList, "vdc".toList ++ '=' :: fmt x,
        "vac".toList ++ '=' :: fmt y] = .ok (.V ('v' :: r) n1 n2 (some x) (some y) none) ∧
    parseElem models els ['d' :: r, n1, n2, md, "ic".toList ++ '=' :: fmt y,
        "area".toList ++ '=' :: fmt x] =
      .ok (.D ('d' :: r) n1 n2 md (some x) (some y) false) ∧
    parseElem models els ['m' :: r, n1, n2, n3, n4, md, "w".toList ++ '=' :: fmt x,
        "l".toList ++ '=' :: fmt y] = .ok (.M ('m' :: r) n1 n2 n3 n4 md x y 1 1) := by
  have hvd : param "type=vdc".toList = .ok ("type".toList, .text "vdc".toList) := by decide +kernel
  have hid : param "type=idc".toList = .ok ("type".toList, .text "idc".toList) := by decide +kernel
  have hux := units_fmt fmt x hx
  have P : ∀ (l : Line) (z : ℚ), Printable fmt z → '=' ∉ l → (∀ c ∈ l, c.isWhitespace = false) →
      param (l ++ '=' :: fmt z) = .ok (l, .num z) := fun l z hz h1 h2 => param_num l fmt z hz h1 h2
  have hic := P "ic".toList y hy (by decide) (by decide +kernel)
  have har := P "area".toList x hx (by decide) (by decide +kernel)
  have hvdc := P "vdc".toList x hx (by decide) (by decide +kernel)
  have hidc := P "idc".toList x hx (by decide) (by decide +kernel)
  have hvac := P "vac".toList y hy (by decide) (by decide +kernel)
  have hw := P "w".toList x hx (by decide) (by decide +kernel)
  have hl := P "l".toList y hy (by decide) (by decide +kernel)
  have nc : ∀ (l : Line) (z : ℚ), l ≠ [] → l.head? ≠ some '*' →
      ¬ (l ++ '=' :: fmt z).head? = some '*' := by
    intro l z h1 h2
    cases l with
    | nil => exact absurd rfl h1
    | cons a l => simpa using h2
  refine ⟨?_, ?_, ?_, ?_, ?_, ?_, ?_⟩
  · have := nc "ic".toList y (by decide) (by decide)
    simp only [parseElem, parseC, parseIc, commentAt, List.length_cons, List.length_nil,
      List.getElem?_cons_succ, List.getElem?_cons_zero, Option.map_some]
    rw [if_neg (by omega), if_pos (by simp)]
    simp only [List.getElem!_cons_succ, List.getElem!_cons_zero, hic, hux, bind, Except.bind,
      if_true, unitsVal, Functor.map, Except.map]
  · have := nc "ic".toList y (by decide) (by decide)
    simp only [parseElem, parseL, parseIc, commentAt, List.length_cons, List.length_nil,
      List.getElem?_cons_succ, List.getElem?_cons_zero, Option.map_some]
    rw [if_neg (by omega), if_neg (by omega), if_pos (by simp)]
    simp only [List.getElem!_cons_succ, List.getElem!_cons_zero, hic, hux, bind, Except.bind,
      if_true, unitsVal, Functor.map, Except.map]
  · simp only [parseElem, parseV, List.length_cons, List.drop_succ_cons, List.drop_zero]
    rw [if_neg (by omega)]
    unfold srcLoop
    rw [if_neg (by decide +kernel), hvd]
    simp only [bind, Except.bind, if_true, true_or]
    simp only [Option.isSome_none, Bool.false_eq_true, if_false]
    unfold srcLoop
    rw [if_neg (nc _ _ (by decide) (by decide)), hvdc]
    simp only [bind, Except.bind]
    rw [if_neg (by decide +kernel), if_pos trivial]
    simp [unitsVal, srcLoop]
  · simp only [parseElem, parseI, List.length_cons, List.drop_succ_cons, List.drop_zero]
    rw [if_neg (by omega)]
    unfold srcLoop
    rw [if_neg (by decide +kernel), hid]
    simp only [bind, Except.bind, if_true, true_or]
    simp only [Option.isSome_none, Bool.false_eq_true, if_false]
    unfold srcLoop
    rw [if_neg (nc _ _ (by decide) (by decide)), hidc]
    simp only [bind, Except.bind]
    rw [if_neg (by decide +kernel), if_pos trivial]
    simp [unitsVal, srcLoop]
  · simp only [parseElem, parseV, List.length_cons, List.drop_succ_cons, List.drop_zero]
    rw [if_neg (by omega)]
    unfold srcLoop
    rw [if_neg (by decide +kernel), hvd]
    simp only [bind, Except.bind, if_true, true_or]
    simp only [Option.isSome_none, Bool.false_eq_true, if_false]
    unfold srcLoop
    rw [if_neg (nc _ _ (by decide) (by decide)), hvdc]
    simp only [bind, Except.bind]
    rw [if_neg (by decide +kernel), if_pos trivial]
    simp only [unitsVal]
    unfold srcLoop
    rw [if_neg (nc _ _ (by decide) (by decide)), hvac]
    simp only [bind, Except.bind]
    rw [if_neg (by decide +kernel), if_neg (by decide +kernel), if_pos trivial]
    simp [unitsVal, srcLoop]
  · simp only [parseElem, parseD, List.length_cons, List.drop_succ_cons, List.drop_zero]
    rw [if_neg (by omega)]
    unfold dLoop
    rw [if_neg (nc _ _ (by decide) (by decide)), hic]
    simp only [bind, Except.bind, unitsVal]
    rw [if_neg (by decide +kernel), if_neg (by decide +kernel), if_pos trivial]
    unfold dLoop
    rw [if_neg (nc _ _ (by decide) (by decide)), har]
    simp [bind, Except.bind, unitsVal, dLoop, hmd]
  · simp only [parseElem, parseM, List.length_cons, List.drop_succ_cons, List.drop_zero]
    rw [if_neg (by omega)]
    unfold mLoop
    rw [if_neg (nc _ _ (by decide) (by decide)), hw]
    simp only [bind, Except.bind, unitsVal, if_true]
    unfold mLoop
    rw [if_neg (nc _ _ (by decide) (by decide)), hl]
    simp only [bind, Except.bind, unitsVal]
    rw [if_neg (by decide +kernel), if_pos trivial]
    simp [mLoop, hmd]

/-- C87: documented forms that are not accepted. `OFF` of a diode in any of its spellings; the
parameters `io`, `ia`, … that replace `vo`, `va`, … in current sources; the delay of `SFFM` after
the other five parameters by position; a `SIN` current source with optional parameters left out
(the same voltage source is accepted). -/
theorem C87_accepted_refuted :
    parseElem ["dm".toList] [] (line "d1 1 0 dm off=1") = .error .type ∧
    parseElem ["dm".toList] [] (line "d1 1 0 dm off") = .error .parse ∧
    parseElem ["dm".toList] [] (line "d1 1 0 dm off=true") = .error .value ∧
    parseElem [] [] (line "i1 1 0 type=sin io=0 ia=1 freq=1k td=0 theta=0") = .error .parse ∧
    (parseElem [] [] (line "i1 1 0 type=sin vo=0 va=1 freq=1k td=0 theta=0")).isOk ∧
    parseElem [] [] (line "v1 1 0 type=sffm 0 1 1k 1 10 1m") = .error .parse ∧
    parseElem [] [] (line "i1 1 0 type=sin 0 1 1k") = .error .index ∧
    (parseElem [] [] (line "v1 1 0 type=sin 0 1 1k")).isOk := by decide +kernel

/-- C87: no line of a diode whose first parameter is `off=…` is accepted. -/
theorem C87_off_refuted (models : List Line) (els : List PElem) (r n1 n2 md : Line) (v : Line)
    (hv : '=' ∉ v) (hw : ∀ c ∈ v, c.isWhitespace = false) (rest : List Line) (e : PElem) :
    parseElem models els (('d' :: r) :: n1 :: n2 :: md :: ("off=".toList ++ v) :: rest) ≠ .ok e := by
  intro h
  simp only [parseElem, parseD, List.length_cons, List.drop_succ_cons, List.drop_zero] at h
  rw [if_neg (by omega)] at h
  unfold dLoop at h
  rw [if_neg (by simp)] at h
  cases hp : param ("off=".toList ++ v) with
  | error x => rw [hp] at h; cases h
  | ok lv =>
    obtain ⟨l, w⟩ := lv
    rw [hp] at h
    simp only [bind, Except.bind] at h
    cases hu : unitsVal w with
    | error x => rw [hu] at h; cases h
    | ok x =>
      rw [hu] at h
      have hl : l = "off".toList := by
        have hsp := C72_split "off".toList v (by decide) hv (strip_word _ (by
          intro c hc
          rcases List.mem_append.1 hc with hc | hc
          · exact (by decide +kernel : ∀ c ∈ "off".toList, c.isWhitespace = false) c hc
          · rcases List.mem_cons.1 hc with rfl | hc
            · decide
            · exact hw c hc)) .float
        have heq : "off=".toList ++ v = "off".toList ++ '=' :: v := by simp
        unfold param at hp
        rw [heq, hsp] at hp
        cases hcv : convert v .float with
        | none => rw [hcv] at hp; cases hp
        | some y =>
          rw [hcv] at hp
          simp only [Option.map_some, Except.ok.injEq, Prod.mk.injEq] at hp
          exact hp.1.symm
      subst hl
      simp only at h
      rw [if_neg (by decide +kernel), if_neg (by decide +kernel), if_neg (by decide +kernel),
        if_pos trivial] at h
      cases h

end Verif.Parse
