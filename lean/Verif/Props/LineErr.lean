import Verif.Props.Parse

/-!
# C206: element lines that are wrong
-/

namespace Verif.Parse
open Verif.Small Verif.Netlist

/-- the number of words which the documentation asks for, by the first letter -/
def needed : Char → Option Nat
  | 'r' | 'c' | 'l' | 'k' | 'd' => some 4
  | 'e' | 'g' | 's' | 'm' => some 6
  | 'f' | 'h' => some 5
  | 'v' | 'i' => some 3
  | _ => none

/-- C206: a line with too few words is reported as an error of the netlist, whatever the words are. -/
theorem C206_short (models : List Line) (els : List PElem) (c : Char) (n : Nat) (hn : needed c = some n) (r : Line) (ws : List Line)
    (hl : ws.length + 1 < n) : parseElem models els ((c :: r) :: ws) = .error .parse := by
  have key : ∀ (k : Nat) (j : Nat), ws.length + 1 < k → surplus ((c :: r) :: ws) k j = some .parse := by
    intro k j hk
    unfold surplus
    rw [if_pos (by simpa using hk)]
  unfold needed at hn
  split at hn <;> first | (injection hn with hn; subst hn) | cases hn
  all_goals simp only [parseElem]
  · rw [parseR, key _ _ hl]
  · rw [parseC, if_pos (.inl (by simpa using hl))]
  · rw [parseL, if_pos (by simpa using hl)]
  · rw [parseK, key _ _ hl]
  · rw [parseD, if_pos (by simpa using hl)]
  · rw [parseE, key _ _ hl]
  · rw [parseG, key _ _ hl]
  · rw [parseS, key _ _ hl]
  · rw [parseM, if_pos (by simpa using hl)]
  · rw [parseF, key _ _ hl]
  · rw [parseH, key _ _ hl]
  · rw [parseV, if_pos (by simpa using hl)]
  · rw [parseI, if_pos (by simpa using hl)]

/-- C206: letters that stand for no element are reported as errors of the netlist (`x` and `y` have parsers of their own). -/
theorem C206_letter (models : List Line) (els : List PElem) (c : Char) (hn : needed c = none) (r : Line) (ws : List Line) :
    parseElem models els ((c :: r) :: ws) = .error .parse := by
  unfold parseElem
  split <;> rename_i heq <;> first | rfl | (injection heq with h1 h2; injection h1 with h3 h4; subst h3; simp [needed] at hn)

/-- C206: a resistor of zero ohm, a model nobody knows, a source without value and a transistor without dimensions are errors of the
netlist. -/
theorem C206_missing (models : List Line) (els : List PElem) (r n1 n2 n3 n4 md v : Line) (hv : Units.convertUnits v = .ok 0)
    (hm : md ∉ models) :
    parseElem models els ['r' :: r, n1, n2, v] = .error .parse ∧
    parseElem models els ['d' :: r, n1, n2, md] = .error .parse ∧
    parseElem models els ['s' :: r, n1, n2, n3, n4, md] = .error .parse ∧
    parseElem models els ['v' :: r, n1, n2] = .error .parse ∧
    parseElem models els ['i' :: r, n1, n2] = .error .parse ∧
    (∀ md, parseElem models els ['m' :: r, n1, n2, n3, n4, md] = .error .parse) := by
  have hu : units v = .ok 0 := by unfold units; rw [hv]
  refine ⟨?_, ?_, ?_, ?_, ?_, fun _ => ?_⟩
  · simp [parseElem, parseR, surplus, hu, bind, Except.bind]
  · simp [parseElem, parseD, dLoop, hm, bind, Except.bind]
  · simp [parseElem, parseS, surplus, hm]
  · simp [parseElem, parseV, srcLoop, bind, Except.bind]
  · simp [parseElem, parseI, srcLoop, bind, Except.bind]
  · simp [parseElem, parseM, mLoop, bind, Except.bind]

/-- C206: dimensions do not make up for an unknown model. -/
theorem C206_mos_model (models : List Line) (els : List PElem) (fmt : ℚ → Line) (r n1 n2 n3 n4 md : Line) (x y : ℚ)
    (hx : Printable fmt x) (hy : Printable fmt y) (hm : md ∉ models) :
    parseElem models els ['m' :: r, n1, n2, n3, n4, md, "w".toList ++ '=' :: fmt x, "l".toList ++ '=' :: fmt y] = .error .parse ∧
    parseElem models els ['m' :: r, n1, n2, n3, n4, md, "w".toList ++ '=' :: fmt x] = .error .parse ∧
    parseElem models els ['m' :: r, n1, n2, n3, n4, md, "l".toList ++ '=' :: fmt y] = .error .parse := by
  have hw := param_num "w".toList fmt x hx (by decide) (by decide +kernel)
  have hl := param_num "l".toList fmt y hy (by decide) (by decide +kernel)
  refine ⟨?_, ?_, ?_⟩
  · simp only [parseElem, parseM, List.length_cons, List.drop_succ_cons, List.drop_zero]
    rw [if_neg (by omega)]
    unfold mLoop
    rw [if_neg (by simp), hw]
    simp only [bind, Except.bind, unitsVal, if_true]
    unfold mLoop
    rw [if_neg (by simp), hl]
    simp only [bind, Except.bind, unitsVal]
    rw [if_neg (by decide +kernel), if_pos trivial]
    simp [mLoop, hm]
  · simp only [parseElem, parseM, List.length_cons, List.drop_succ_cons, List.drop_zero]
    rw [if_neg (by omega)]
    unfold mLoop
    rw [if_neg (by simp), hw]
    simp [bind, Except.bind, unitsVal, mLoop]
  · simp only [parseElem, parseM, List.length_cons, List.drop_succ_cons, List.drop_zero]
    rw [if_neg (by omega)]
    unfold mLoop
    rw [if_neg (by simp), hl]
    simp only [bind, Except.bind, unitsVal]
    rw [if_neg (by decide +kernel), if_pos trivial]
    simp [mLoop]

/-! ### Couplings -/

/-- the element is the inductor of that name -/
def IsInductor (n : Line) (e : PElem) : Prop := ∃ n1 n2 v ic, e = .L n n1 n2 v ic

theorem found_iff (els : List PElem) (l1 l2 : Line) : foundInductors els l1 l2 = true ↔
    l1 ≠ l2 ∧ (∃ e ∈ els, IsInductor l1 e) ∧ ∃ e ∈ els, IsInductor l2 e := by
  unfold foundInductors
  simp only [Bool.and_eq_true, List.any_eq_true, Bool.not_eq_true']
  constructor
  · rintro ⟨⟨e, he, h1⟩, e', he', h2, h3⟩
    cases e <;> simp at h1
    cases e' <;> simp at h2 h3
    subst h1
    subst h3
    exact ⟨fun h => h2 h.symm, ⟨_, he, _, _, _, _, rfl⟩, _, he', _, _, _, _, rfl⟩
  · rintro ⟨h0, ⟨_, he, _, _, _, _, rfl⟩, _, he', _, _, _, _, rfl⟩
    exact ⟨⟨_, he, by simp⟩, _, he', by simpa using fun h => h0 h.symm, by simp⟩

/-- C206: a coupling, with the factor as a number or as `k=` a number, is accepted if and only if it names two different inductors read
before; otherwise it is an error of the netlist. -/
theorem C206_coupling (models : List Line) (els : List PElem) (fmt : ℚ → Line) (r l1 l2 : Line) (x : ℚ) (hx : Printable fmt x)
    (v : Line) (hv : v = fmt x ∨ (v = "k=".toList ++ fmt x)) :
    ((l1 ≠ l2 ∧ (∃ e ∈ els, IsInductor l1 e) ∧ ∃ e ∈ els, IsInductor l2 e) →
      parseElem models els ['k' :: r, l1, l2, v] = .ok (.K ('k' :: r) l1 l2 x)) ∧
    (¬ (l1 ≠ l2 ∧ (∃ e ∈ els, IsInductor l1 e) ∧ ∃ e ∈ els, IsInductor l2 e) →
      parseElem models els ['k' :: r, l1, l2, v] = .error .parse) := by
  have hk : parseKvalue v = .ok x := by
    rcases hv with rfl | rfl
    · rw [parseKvalue, units_fmt fmt x hx]
    · have hp := param_num "k".toList fmt x hx (by decide) (by decide +kernel)
      have hu : units ("k=".toList ++ fmt x) = .error .value := by
        have hs : Units.strip ("k=".toList ++ fmt x) = "k=".toList ++ fmt x := by
          apply strip_word
          intro c hc
          rcases List.mem_append.1 hc with hc | hc
          · exact (by decide +kernel : ∀ c ∈ "k=".toList, c.isWhitespace = false) c hc
          · exact hx.word.2 c hc
        have : Units.convertUnits ("k=".toList ++ fmt x) = .error .value := by
          unfold Units.convertUnits
          rw [if_neg (by simp), hs]
          have h1 : (List.map Char.toUpper ("k=".toList ++ fmt x)).takeWhile Units.numChar = [] := by
            have : Units.numChar 'K' = false := by decide
            simp [this]
          simp only [h1, if_true]
        rw [units, this]
      have he : "k=".toList ++ fmt x = "k".toList ++ '=' :: fmt x := by simp
      rw [parseKvalue, hu]
      rw [← he] at hp
      simp only [hp, bind, Except.bind, unitsVal]
      simp
  constructor
  · intro h
    simp [parseElem, parseK, surplus, hk, bind, Except.bind, (found_iff els l1 l2).2 h]
  · intro h
    have : ¬ foundInductors els l1 l2 = true := fun hf => h ((found_iff els l1 l2).1 hf)
    simp [parseElem, parseK, surplus, hk, bind, Except.bind, this]

/-- C206: a factor under another name is an error of the netlist. -/
theorem C206_factor (models : List Line) (els : List PElem) : ∀ n ∈ ["m", "kk", "value"],
    parseElem models els [['k', '1'], ['l', '1'], ['l', '2'], (n ++ "=0.5").toList] = .error .parse := by
  intro n hn
  simp only [List.mem_cons, List.not_mem_nil, or_false] at hn
  rcases hn with rfl | rfl | rfl
  all_goals
    simp only [parseElem, parseK, surplus, List.length_cons, List.length_nil]
    rfl

/-! ### Time functions -/

/-- C206: a source takes as many words for its time function as the function has parameters. What is missing: `sffm`, one word less. -/
theorem C206_words_partial (ty : Line) (spec : List Directive.Tok) (h : Directive.timeSpecs (String.ofList ty) = some spec) :
    paramNumber ty = if ty = "sffm".toList then spec.length - 1 else spec.length := by
  unfold Directive.timeSpecs at h
  split at h <;> rename_i heq
  case h_6 => cases h
  all_goals
    injection h with h
    subst h
    obtain rfl : ty = _ := by
      rw [← String.toList_ofList (l := ty), heq]
    decide +kernel

/-- C206 refuted: the last parameter of `sffm`, its delay, has no place among the words. -/
theorem C206_words_refuted : (Directive.timeSpecs "sffm").map List.length = some 6 ∧ paramNumber "sffm".toList = 5 := by decide +kernel

theorem elem_v (models : List Line) (els : List PElem) (t : List Line) (h : t.head?.bind List.head? = some 'v') :
    parseElem models els t = parseV t := by
  rcases t with _ | ⟨_ | ⟨c, r⟩, t⟩ <;> simp at h
  subst h; rfl

theorem elem_i (models : List Line) (els : List PElem) (t : List Line) (h : t.head?.bind List.head? = some 'i') :
    parseElem models els t = parseI t := by
  rcases t with _ | ⟨_ | ⟨c, r⟩, t⟩ <;> simp at h
  subst h; rfl

theorem elem_c (models : List Line) (els : List PElem) (t : List Line) (h : t.head?.bind List.head? = some 'c') :
    parseElem models els t = parseC t := by
  rcases t with _ | ⟨_ | ⟨c, r⟩, t⟩ <;> simp at h
  subst h; rfl

theorem elem_l (models : List Line) (els : List PElem) (t : List Line) (h : t.head?.bind List.head? = some 'l') :
    parseElem models els t = parseL t := by
  rcases t with _ | ⟨_ | ⟨c, r⟩, t⟩ <;> simp at h
  subst h; rfl

/-- C206: time functions without their required parameters, functions that do not exist, parameters of sources that do not exist, and
words with two equal signs are errors of the netlist. -/
theorem C206_sources (models : List Line) (els : List PElem) : ∀ l ∈ ["v1 1 0 type=sin", "i1 1 0 type=exp v1=0", "v1 1 0 type=pwl x1=1",
    "v1 1 0 type=1", "v1 1 0 vdc=1 foo=1", "i1 1 0 idc=1 vdc=1", "v1 1 0 vdc=1=2", "c1 1 0 1p ic=1 ic=2",
    "c1 1 0 1p icc=1", "l1 1 0 1u foo=1", "v1 1 0 type=sin 0 1 1k 0 0 type=sin 0 1 1k 0 0"],
    parseElem models els (line l) = .error .parse := by
  intro l hl
  simp only [List.mem_cons, List.not_mem_nil, or_false] at hl
  rcases hl with rfl | rfl | rfl | rfl | rfl | rfl | rfl | rfl | rfl | rfl | rfl
  all_goals first
    | exact (elem_v models els _ (by decide +kernel)).trans (by decide +kernel)
    | exact (elem_i models els _ (by decide +kernel)).trans (by decide +kernel)
    | exact (elem_c models els _ (by decide +kernel)).trans (by decide +kernel)
    | exact (elem_l models els _ (by decide +kernel)).trans (by decide +kernel)

/-! ### Values that are no numbers -/

/-- C206 refuted: a value that is no number is not reported as an error of the netlist: the ValueError of `float` leaves the parser. -/
theorem C206_value_refuted (models : List Line) (els : List PElem) (r n1 n2 n3 n4 v : Line) (hv : Units.convertUnits v = .error .value) :
    parseElem models els ['r' :: r, n1, n2, v] = .error .value ∧
    parseElem models els ['c' :: r, n1, n2, v] = .error .value ∧
    parseElem models els ['l' :: r, n1, n2, v] = .error .value ∧
    parseElem models els ['e' :: r, n1, n2, n3, n4, v] = .error .value ∧
    parseElem models els ['g' :: r, n1, n2, n3, n4, v] = .error .value ∧
    parseElem models els ['f' :: r, n1, n2, n3, v] = .error .value ∧
    parseElem models els ['h' :: r, n1, n2, n3, v] = .error .value := by
  have hu : units v = .error .value := by unfold units; rw [hv]
  refine ⟨?_, ?_, ?_, ?_, ?_, ?_, ?_⟩
  · simp [parseElem, parseR, surplus, hu, bind, Except.bind]
  · simp [parseElem, parseC, parseIc, hu, bind, Except.bind]
  · simp [parseElem, parseL, parseIc, hu, bind, Except.bind]
  · simp [parseElem, parseE, surplus, hu, bind, Except.bind]
  · simp [parseElem, parseG, surplus, hu, bind, Except.bind]
  · simp [parseElem, parseF, surplus, hu, bind, Except.bind]
  · simp [parseElem, parseH, surplus, hu, bind, Except.bind]

example : Units.convertUnits "abc".toList = .error .value := by decide +kernel
example : Units.convertUnits "0".toList = .ok 0 := by decide +kernel

/-- C206: a parameter without a value and a time function with wrong or missing parameters, or of a kind that is not known, raise
`NetlistParseError`. -/
theorem C206_functions (s : Line) (ty : Line) (t : List Line) (e : PErr) :
    (param s = .error e → e = .parse) ∧ (timeFunction ty t = .error e → e = .parse) := by
  constructor
  · intro h
    unfold param at h
    rcases hp : paramValue s .float with _ | r <;> rw [hp] at h
    · cases h; rfl
    · cases h
  · intro h
    unfold timeFunction at h
    rcases h1 : Directive.timeSpecs (String.ofList ty) with _ | spec <;> rw [h1] at h
    · cases h; rfl
    · simp only at h
      rcases h2 : Directive.bind spec t (fun _ => none) with _ | d <;> rw [h2] at h
      · cases h; rfl
      · cases h

example : (param "v=".toList matches .error .parse) = true ∧ (timeFunction "square".toList [] matches .error .parse) = true ∧
    (timeFunction "sin".toList ["1".toList] matches .error .parse) = true := by
  refine ⟨by decide +kernel, by decide +kernel, by decide +kernel⟩

end Verif.Parse
