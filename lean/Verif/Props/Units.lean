import Verif.Model.Units
import Mathlib.Data.Nat.Digits.Defs
import Mathlib.Tactic.FinCases
import Mathlib.Data.Fintype.Basic
import Mathlib.Data.Fintype.Fin
import Mathlib.Tactic.Ring
import Mathlib.Tactic.NormNum
import Mathlib.Tactic.FieldSimp

/-!
Property C35 (unit suffixes).

The specification: a numeral is built from digits; its text and its value are defined
separately from the parser.
-/

namespace Verif.Units

/-- A decimal numeral as in the SPICE manual: sign, integer digits, optional fraction,
optional exponent (with the letter `e` or `E`, a sign and digits). -/
structure Numeral where
  sgn : Option Bool            -- `some true`: minus, `some false`: plus
  ip : List (Fin 10)
  fp : Option (List (Fin 10))
  ex : Option (Bool × Option Bool × List (Fin 10))  -- upper-case letter?, sign, digits

/-- There is a digit in the mantissa, and one in the exponent if there is one. -/
def Numeral.Ok (n : Numeral) : Prop :=
  (n.ip ≠ [] ∨ ∃ f, n.fp = some f ∧ f ≠ []) ∧ ∀ e, n.ex = some e → e.2.2 ≠ []

/-- The character of a digit. -/
def digitChar (d : Fin 10) : Char := Char.ofNat (48 + d)

def signText : Option Bool → List Char
  | none => []
  | some true => ['-']
  | some false => ['+']

def signVal : Option Bool → ℚ
  | some true => -1
  | _ => 1

/-- The text of a numeral. -/
def Numeral.text (n : Numeral) : List Char :=
  signText n.sgn ++ n.ip.map digitChar ++
  (match n.fp with | none => [] | some f => '.' :: f.map digitChar) ++
  (match n.ex with
    | none => []
    | some (up, s, ds) => (if up then 'E' else 'e') :: (signText s ++ ds.map digitChar))

/-- Positional value of digits, most significant first. -/
def posVal (l : List (Fin 10)) : ℕ := Nat.ofDigits 10 (l.reverse.map Fin.val)

/-- The value of the fraction. -/
def fpVal : Option (List (Fin 10)) → ℚ
  | none => 0
  | some f => (posVal f : ℚ) / 10 ^ f.length

/-- The power of ten that the exponent stands for. -/
def exVal : Option (Bool × Option Bool × List (Fin 10)) → ℚ
  | none => 1
  | some (_, s, ds) =>
    if s = some true then 1 / (10 : ℚ) ^ posVal ds else (10 : ℚ) ^ posVal ds

/-- The value of a numeral. -/
def Numeral.value (n : Numeral) : ℚ :=
  signVal n.sgn * ((posVal n.ip : ℚ) + fpVal n.fp) * exVal n.ex

/-- The documented table of suffixes, in upper case. -/
def table : List (String × ℚ) :=
  [("T", 10^12), ("G", 10^9), ("MEG", 10^6), ("K", 10^3), ("MIL", 254 / 10 * (1 / 10^6)),
   ("M", 1/10^3), ("U", 1/10^6), ("N", 1/10^9), ("P", 1/10^12), ("F", 1/10^15), ("", 1)]

/-! ### The scanner on digits -/

theorem digitChar_isDigit (d : Fin 10) : (digitChar d).isDigit = true := by
  fin_cases d <;> decide

theorem digit_digitChar (d : Fin 10) : digit (digitChar d) = d := by
  fin_cases d <;> decide

theorem digitChar_upper (d : Fin 10) : (digitChar d).toUpper = digitChar d := by
  fin_cases d <;> decide

theorem digitChar_white (d : Fin 10) : (digitChar d).isWhitespace = false := by
  fin_cases d <;> decide

theorem map_upper (l : List (Fin 10)) : (l.map digitChar).map Char.toUpper = l.map digitChar := by
  simp [digitChar_upper]

theorem digitsVal_append (a : List Char) (l : List (Fin 10)) (s : Nat) :
    (l.map digitChar).foldl (fun a c => 10 * a + digit c) s =
      10 ^ l.length * s + posVal l := by
  induction l generalizing s with
  | nil => simp [posVal]
  | cons d l ih =>
    simp only [List.map_cons, List.foldl_cons, ih, digit_digitChar, List.length_cons]
    simp only [posVal, List.reverse_cons, List.map_append, List.map_cons, List.map_nil,
      Nat.ofDigits_append, List.length_map, List.length_reverse, Nat.ofDigits_singleton]
    ring

theorem digitsVal_map (l : List (Fin 10)) : digitsVal (l.map digitChar) = posVal l := by
  unfold digitsVal
  rw [digitsVal_append []]
  simp

theorem digitsVal_map2 (a b : List (Fin 10)) :
    digitsVal (a.map digitChar ++ b.map digitChar) = 10 ^ b.length * posVal a + posVal b := by
  unfold digitsVal
  rw [List.foldl_append, digitsVal_append [], digitsVal_append []]
  simp

theorem takeWhile_digits (l : List (Fin 10)) (r : List Char)
    (h : ∀ c, r.head? = some c → c.isDigit = false) :
    (l.map digitChar ++ r).takeWhile Char.isDigit = l.map digitChar ∧
    (l.map digitChar ++ r).dropWhile Char.isDigit = r := by
  induction l with
  | nil =>
    cases r with
    | nil => simp
    | cons c r => simp [h c rfl]
  | cons d l ih => simp [digitChar_isDigit, ih]

theorem sign_text (s : Option Bool) (r : List Char)
    (h : s = none → ∀ c, r.head? = some c → c ≠ '+' ∧ c ≠ '-') :
    sign (signText s ++ r) = (s == some true, r) := by
  match s with
  | some true => rfl
  | some false => rfl
  | none =>
    simp only [signText, List.nil_append]
    cases r with
    | nil => rfl
    | cons c r =>
      have := h rfl c rfl
      unfold sign
      split
      · rename_i heq; simp at heq; exact absurd heq.1 this.1
      · rename_i heq; simp at heq; exact absurd heq.1 this.2
      · rfl

theorem digitChar_nosign (d : Fin 10) : digitChar d ≠ '+' ∧ digitChar d ≠ '-' := by
  fin_cases d <;> decide

theorem head_digits_nosign (l : List (Fin 10)) (r : List Char)
    (h : l = [] → ∀ c, r.head? = some c → c ≠ '+' ∧ c ≠ '-') (c : Char)
    (hc : (l.map digitChar ++ r).head? = some c) : c ≠ '+' ∧ c ≠ '-' := by
  cases l with
  | nil => exact h rfl c hc
  | cons d l =>
    simp at hc
    rw [← hc]
    exact digitChar_nosign d

/-- The upper-case text of the exponent part. -/
def exUp : Option (Bool × Option Bool × List (Fin 10)) → List Char
  | none => []
  | some (_, s, ds) => 'E' :: (signText s ++ ds.map digitChar)

def fpText : Option (List (Fin 10)) → List Char
  | none => []
  | some f => '.' :: f.map digitChar

def exInt : Option (Bool × Option Bool × List (Fin 10)) → ℤ
  | none => 0
  | some (_, s, ds) => if s = some true then -(posVal ds : ℤ) else posVal ds

theorem exponent_exUp (ex : Option (Bool × Option Bool × List (Fin 10)))
    (h : ∀ e, ex = some e → e.2.2 ≠ []) :
    exponent (exUp ex) = some (exInt ex) := by
  match ex with
  | none => rfl
  | some (u, s, ds) =>
    have hne : ds ≠ [] := h _ rfl
    simp only [exUp, exponent]
    rw [sign_text]
    · have h1 : (ds.map digitChar).all Char.isDigit = true := by
        simp [List.all_eq_true, digitChar_isDigit]
      simp only [h1, ne_eq, List.map_eq_nil_iff, hne, not_false_eq_true, and_self, if_true,
        digitsVal_map]
      match s with
      | some true => simp [exInt]
      | some false => simp [exInt]
      | none => simp [exInt]
    · intro _ c hc
      have := head_digits_nosign ds [] (fun h => absurd h hne) c (by simpa using hc)
      exact this

theorem exUp_head (ex : Option (Bool × Option Bool × List (Fin 10))) (c : Char)
    (h : (exUp ex).head? = some c) : c = 'E' := by
  match ex with
  | none => simp [exUp] at h
  | some _ => simp [exUp] at h; exact h.symm

theorem pyFloat_text (n : Numeral) (h : n.Ok) :
    pyFloat (signText n.sgn ++ (n.ip.map digitChar ++ (fpText n.fp ++ exUp n.ex))) =
      some n.value := by
  obtain ⟨sgn, ip, fp, ex⟩ := n
  obtain ⟨hm, hex⟩ := h
  simp only at hm hex ⊢
  unfold pyFloat
  have hrest : ∀ c, (fpText fp ++ exUp ex).head? = some c → c = '.' ∨ c = 'E' := by
    intro c hc
    match fp with
    | none => right; exact exUp_head ex c (by simpa [fpText] using hc)
    | some f => left; simp [fpText] at hc; exact hc.symm
  rw [sign_text]
  swap
  · intro _ c hc
    refine head_digits_nosign ip _ (fun hip c hc => ?_) c hc
    rcases hrest c hc with rfl | rfl <;> decide
  have hd := takeWhile_digits ip (fpText fp ++ exUp ex) (by
    intro c hc
    rcases hrest c hc with rfl | rfl <;> decide)
  simp only [hd.1, hd.2]
  have hE := exponent_exUp ex hex
  have hexd : ∀ c, (exUp ex).head? = some c → c.isDigit = false := by
    intro c hc
    rw [exUp_head ex c hc]; decide
  have ten : (10 : ℚ) ≠ 0 := by norm_num
  -- the exponent factor
  have hpow : ∀ k : ℕ, (10 : ℚ) ^ (exInt ex - (k : ℤ)) = exVal ex / 10 ^ k := by
    intro k
    rw [zpow_sub₀ ten, zpow_natCast]
    congr 1
    match ex with
    | none => simp [exInt, exVal]
    | some (_, s, ds) =>
      simp only [exInt, exVal]
      split
      · rw [zpow_neg, zpow_natCast, one_div]
      · rw [zpow_natCast]
  have hsgn : ∀ x : ℚ, signed (sgn == some true) x = signVal sgn * x := by
    intro x
    match sgn with
    | none => simp [signed, signVal]
    | some true => simp [signed, signVal]
    | some false => simp [signed, signVal]
  match fp with
  | none =>
    have hip : ip ≠ [] := by
      rcases hm with h | ⟨f, hf, -⟩
      · exact h
      · cases hf
    have hmatch : fraction (exUp ex) = ([], exUp ex) := by
      match ex with
      | none => rfl
      | some _ => rfl
    simp only [fpText, List.nil_append, hmatch]
    rw [if_neg (by simp [hip]), hE]
    simp only [Option.map_some, Numeral.value, fpVal, List.append_nil, digitsVal_map, hpow, hsgn,
      List.length_nil, pow_zero, div_one, add_zero]
    ring_nf
  | some f =>
    have hfd := takeWhile_digits f (exUp ex) hexd
    simp only [fpText, List.cons_append, fraction, hfd.1, hfd.2]
    rw [if_neg, hE]
    · simp only [Option.map_some, Numeral.value, fpVal, digitsVal_map2, hpow, hsgn, List.length_map]
      congr 1
      push_cast
      have h10 : (10 : ℚ) ^ f.length ≠ 0 := pow_ne_zero _ ten
      field_simp
    · rintro ⟨h1, h2⟩
      simp at h1 h2
      rcases hm with h | ⟨f', hf', hne⟩
      · exact h h1
      · cases hf'; exact hne h2

/-! ### The whole function -/

theorem signText_upper (s : Option Bool) : (signText s).map Char.toUpper = signText s := by
  match s with
  | none => rfl
  | some true => decide
  | some false => decide

/-- Upper-case text of a numeral. -/
theorem text_upper (n : Numeral) : n.text.map Char.toUpper =
    signText n.sgn ++ (n.ip.map digitChar ++ (fpText n.fp ++ exUp n.ex)) := by
  unfold Numeral.text
  simp only [List.map_append, List.append_assoc, signText_upper, map_upper]
  congr 2
  congr 1
  · match n.fp with
    | none => rfl
    | some f => simp only [fpText, List.map_cons, map_upper]; rfl
  · match n.ex with
    | none => rfl
    | some (u, s, ds) =>
      simp only [exUp, List.map_cons, List.map_append, signText_upper, map_upper]
      congr 1
      cases u <;> decide

theorem numChar_digit (d : Fin 10) : numChar (digitChar d) = true := by
  simp [numChar, digitChar_isDigit]

theorem numChar_text (n : Numeral) : ∀ c ∈ n.text.map Char.toUpper, numChar c = true := by
  rw [text_upper]
  have hs : ∀ s, ∀ c ∈ signText s, numChar c = true := by
    intro s c hc
    match s with
    | none => simp [signText] at hc
    | some true => simp [signText] at hc; subst hc; decide
    | some false => simp [signText] at hc; subst hc; decide
  have hd : ∀ l : List (Fin 10), ∀ c ∈ l.map digitChar, numChar c = true := by
    intro l c hc
    obtain ⟨d, -, rfl⟩ := List.mem_map.1 hc
    exact numChar_digit d
  intro c hc
  simp only [List.mem_append] at hc
  rcases hc with h | h | h | h
  · exact hs _ _ h
  · exact hd _ _ h
  · match hfp : n.fp with
    | none => rw [hfp] at h; simp [fpText] at h
    | some f =>
      rw [hfp] at h
      simp only [fpText, List.mem_cons] at h
      rcases h with rfl | h
      · decide
      · exact hd _ _ h
  · match hex : n.ex with
    | none => rw [hex] at h; simp [exUp] at h
    | some (u, s, ds) =>
      rw [hex] at h
      simp only [exUp, List.mem_cons, List.mem_append] at h
      rcases h with rfl | h | h
      · decide
      · exact hs _ _ h
      · exact hd _ _ h

theorem toUpper_white (c : Char) (h : c.isWhitespace = true) : numChar c.toUpper = false := by
  simp only [Char.isWhitespace, Bool.or_eq_true, decide_eq_true_eq, beq_iff_eq] at h
  rcases h with ((rfl | rfl) | rfl) | rfl <;> decide

theorem strip_append (a b : List Char) (ha : a ≠ []) (hwa : ∀ c ∈ a, c.isWhitespace = false)
    (hwb : ∀ c ∈ b, c.isWhitespace = false) : strip (a ++ b) = a ++ b := by
  have hall : ∀ l : List Char, (∀ c ∈ l, c.isWhitespace = false) →
      l.dropWhile Char.isWhitespace = l := by
    intro l hl
    cases l with
    | nil => rfl
    | cons c l => simp [hl c (by simp)]
  have hab : ∀ c ∈ a ++ b, c.isWhitespace = false := by
    intro c hc
    rcases List.mem_append.1 hc with h | h
    · exact hwa c h
    · exact hwb c h
  unfold strip
  rw [hall (a ++ b) hab, hall (a ++ b).reverse (fun c hc => hab c (List.mem_reverse.1 hc)),
    List.reverse_reverse]

theorem table_ok (name : String) (f : ℚ) (h : (name, f) ∈ table) :
    multiplier name.toList = some f ∧
    (∀ c, name.toList.head? = some c → numChar c = false) := by
  simp only [table, List.mem_cons, Prod.mk.injEq, List.not_mem_nil, or_false] at h
  rcases h with ⟨rfl, rfl⟩ | ⟨rfl, rfl⟩ | ⟨rfl, rfl⟩ | ⟨rfl, rfl⟩ | ⟨rfl, rfl⟩ | ⟨rfl, rfl⟩ |
    ⟨rfl, rfl⟩ | ⟨rfl, rfl⟩ | ⟨rfl, rfl⟩ | ⟨rfl, rfl⟩ | ⟨rfl, rfl⟩ <;>
  refine ⟨by decide +kernel, ?_⟩ <;> intro c hc <;> simp at hc <;> subst hc <;> decide

theorem multiplier_table (m : List Char) (f : ℚ) (h : multiplier m = some f) :
    ∃ e ∈ table, m = e.1.toList ∧ f = e.2 := by
  unfold multiplier at h
  split at h
  · rename_i hm
    refine ⟨("", 1), by simp only [table, List.mem_cons, true_or, or_true], by simp [hm],
      (Option.some.inj h).symm.trans (by norm_num)⟩
  split at h
  · rename_i hm
    refine ⟨("T", 10^12), by simp only [table, List.mem_cons, true_or, or_true], by simp [hm],
      (Option.some.inj h).symm.trans (by norm_num)⟩
  split at h
  · rename_i hm
    refine ⟨("G", 10^9), by simp only [table, List.mem_cons, true_or, or_true], by simp [hm],
      (Option.some.inj h).symm.trans (by norm_num)⟩
  split at h
  · rename_i hm
    refine ⟨("K", 10^3), by simp only [table, List.mem_cons, true_or, or_true], by simp [hm],
      (Option.some.inj h).symm.trans (by norm_num)⟩
  split at h
  · rename_i hm
    refine ⟨("M", 1/10^3), by simp only [table, List.mem_cons, true_or, or_true], by simp [hm],
      (Option.some.inj h).symm.trans (by norm_num)⟩
  split at h
  · rename_i hm
    refine ⟨("U", 1/10^6), by simp only [table, List.mem_cons, true_or, or_true], by simp [hm],
      (Option.some.inj h).symm.trans (by norm_num)⟩
  split at h
  · rename_i hm
    refine ⟨("N", 1/10^9), by simp only [table, List.mem_cons, true_or, or_true], by simp [hm],
      (Option.some.inj h).symm.trans (by norm_num)⟩
  split at h
  · rename_i hm
    refine ⟨("P", 1/10^12), by simp only [table, List.mem_cons, true_or, or_true], by simp [hm],
      (Option.some.inj h).symm.trans (by norm_num)⟩
  split at h
  · rename_i hm
    refine ⟨("F", 1/10^15), by simp only [table, List.mem_cons, true_or, or_true], by simp [hm],
      (Option.some.inj h).symm.trans (by norm_num)⟩
  split at h
  · rename_i hm
    refine ⟨("MEG", 10^6), by simp only [table, List.mem_cons, true_or, or_true], by simp [hm],
      (Option.some.inj h).symm.trans (by norm_num)⟩
  split at h
  · rename_i hm
    refine ⟨("MIL", 254 / 10 * (1 / 10^6)), by simp only [table, List.mem_cons, true_or, or_true], by simp [hm],
      (Option.some.inj h).symm.trans (by norm_num)⟩
  cases h

theorem upper_alpha_white (c : Char) (h : c.isWhitespace = true) : c.toUpper = c := by
  simp only [Char.isWhitespace, Bool.or_eq_true, decide_eq_true_eq, beq_iff_eq] at h
  rcases h with ((rfl | rfl) | rfl) | rfl <;> decide

/-- C35: a numeral followed by a documented suffix, in any letter case, is the value of the
numeral times the factor of the suffix. -/
theorem C35_value (n : Numeral) (hn : n.Ok) (name : String) (f : ℚ) (hf : (name, f) ∈ table)
    (suffix : List Char) (hsuf : suffix.map Char.toUpper = name.toList) :
    convertUnits (n.text ++ suffix) = .ok (n.value * f) := by
  obtain ⟨hmul, hhead⟩ := table_ok name f hf
  have hup : (n.text ++ suffix).map Char.toUpper = n.text.map Char.toUpper ++ name.toList := by
    rw [List.map_append, hsuf]
  have hne : n.text.map Char.toUpper ≠ [] := by
    intro h
    have := pyFloat_text n hn
    rw [← text_upper, h] at this
    simp [pyFloat, sign, fraction] at this
  have hne' : n.text ≠ [] := by
    intro h; rw [h] at hne; exact hne rfl
  have hwt : ∀ c ∈ n.text, c.isWhitespace = false := by
    intro c hc
    by_contra hw
    have hw : c.isWhitespace = true := by simpa using hw
    have := numChar_text n c.toUpper (List.mem_map.2 ⟨c, hc, rfl⟩)
    rw [toUpper_white c hw] at this
    cases this
  have hws : ∀ c ∈ suffix, c.isWhitespace = false := by
    intro c hc
    by_contra hw
    have hw : c.isWhitespace = true := by simpa using hw
    have hmem : c ∈ name.toList := by
      rw [← hsuf, ← upper_alpha_white c hw]
      exact List.mem_map.2 ⟨c, hc, rfl⟩
    simp only [table, List.mem_cons, Prod.mk.injEq, List.not_mem_nil, or_false] at hf
    rcases hf with ⟨rfl, -⟩ | ⟨rfl, -⟩ | ⟨rfl, -⟩ | ⟨rfl, -⟩ | ⟨rfl, -⟩ | ⟨rfl, -⟩ |
      ⟨rfl, -⟩ | ⟨rfl, -⟩ | ⟨rfl, -⟩ | ⟨rfl, -⟩ | ⟨rfl, -⟩ <;>
    simp at hmem
    all_goals
      first
      | (subst hmem; revert hw; decide)
      | (rcases hmem with rfl | rfl | rfl <;> revert hw <;> decide)
  have htake : ∀ (l r : List Char), (∀ c ∈ l, numChar c = true) →
      (∀ c, r.head? = some c → numChar c = false) →
      (l ++ r).takeWhile numChar = l ∧ (l ++ r).dropWhile numChar = r := by
    intro l r hl hr
    induction l with
    | nil =>
      cases r with
      | nil => simp
      | cons c r => simp [hr c rfl]
    | cons c l ih =>
      have := ih (fun c hc => hl c (List.mem_cons_of_mem _ hc))
      simp [hl c (by simp), this]
  have ht := htake _ _ (numChar_text n) hhead
  unfold convertUnits
  rw [if_neg (by simp [hne'])]
  simp only
  rw [strip_append _ _ hne' hwt hws, hup, ht.1, ht.2, if_neg hne, text_upper, pyFloat_text n hn]
  simp only [hmul]

/-- C35: whatever is accepted consists, between optional blanks, of a number and a suffix from
the table; in particular unknown suffixes are refused, and no accepted string has another
magnitude. -/
theorem C35_only_documented (s : List Char) (v : ℚ) (h : convertUnits s = .ok v) :
    ∃ num suffix x, ∃ e ∈ table, strip s = num ++ suffix ∧ num ≠ [] ∧
      pyFloat (num.map Char.toUpper) = some x ∧
      suffix.map Char.toUpper = e.1.toList ∧ v = x * e.2 := by
  unfold convertUnits at h
  split at h
  · cases h
  · simp only at h
    split at h
    · cases h
    · rename_i hne
      split at h
      · cases h
      · rename_i x hx
        split at h
        · cases h
        · rename_i f hf
          cases h
          have key : ∀ l : List Char, ∃ a b, l = a ++ b ∧
              (l.map Char.toUpper).takeWhile numChar = a.map Char.toUpper ∧
              (l.map Char.toUpper).dropWhile numChar = b.map Char.toUpper := by
            intro l
            induction l with
            | nil => exact ⟨[], [], rfl, rfl, rfl⟩
            | cons c l ih =>
              by_cases hc : numChar c.toUpper = true
              · obtain ⟨a, b, h1, h2, h3⟩ := ih
                exact ⟨c :: a, b, by rw [h1]; rfl, by simp [hc, h2], by simp [hc, h3]⟩
              · exact ⟨[], c :: l, rfl, by simp [hc], by simp [hc]⟩
          obtain ⟨a, b, h1, h2, h3⟩ := key (strip s)
          rw [h2] at hx hne
          rw [h3] at hf
          obtain ⟨e, he, hb, hfe⟩ := multiplier_table _ _ hf
          refine ⟨a, b, x, e, he, h1, ?_, hx, hb, by rw [hfe]⟩
          intro ha
          rw [ha] at hne
          exact hne rfl

/-! ### The converse: what is accepted is a numeral -/

theorem isDigit_digitChar (c : Char) (h : c.isDigit = true) : ∃ d : Fin 10, c = digitChar d := by
  simp only [Char.isDigit, ge_iff_le, Bool.and_eq_true, decide_eq_true_eq] at h
  have h1 : 48 ≤ c.toNat := h.1
  have h2 : c.toNat ≤ 57 := h.2
  refine ⟨⟨c.toNat - 48, by omega⟩, ?_⟩
  unfold digitChar
  rw [show 48 + (⟨c.toNat - 48, by omega⟩ : Fin 10).val = c.toNat from by
    show 48 + (c.toNat - 48) = c.toNat
    omega, Char.ofNat_toNat]

theorem digits_map (l : List Char) (h : ∀ c ∈ l, c.isDigit = true) : ∃ ds : List (Fin 10), l = ds.map digitChar := by
  induction l with
  | nil => exact ⟨[], rfl⟩
  | cons c t ih =>
    obtain ⟨d, hd⟩ := isDigit_digitChar c (h c (by simp))
    obtain ⟨ds, hds⟩ := ih fun x hx => h x (List.mem_cons_of_mem _ hx)
    exact ⟨d :: ds, by rw [hd, hds]; rfl⟩

theorem takeWhile_map (l : List Char) : ∃ ds : List (Fin 10), l.takeWhile Char.isDigit = ds.map digitChar :=
  digits_map _ (List.all_eq_true.1 List.all_takeWhile)

theorem sign_inv (s : List Char) : ∃ sg, s = signText sg ++ (sign s).2 := by
  unfold sign
  split
  · exact ⟨some false, rfl⟩
  · exact ⟨some true, rfl⟩
  · exact ⟨none, rfl⟩

theorem exponent_inv (s : List Char) (e : ℤ) (h : exponent s = some e) :
    ∃ ex, s = exUp ex ∧ ∀ x, ex = some x → x.2.2 ≠ [] := by
  unfold exponent at h
  split at h
  · exact ⟨none, rfl, by simp⟩
  · rename_i r
    simp only at h
    split at h
    · rename_i hd
      obtain ⟨sg, hsg⟩ := sign_inv r
      obtain ⟨ds, hds⟩ := digits_map (sign r).2 (by simpa [List.all_eq_true] using hd.2)
      refine ⟨some (true, sg, ds), ?_, ?_⟩
      · rw [exUp, ← hds, ← hsg]
      · intro x hx
        cases hx
        intro h0
        simp only at h0
        exact hd.1 (by rw [hds, h0]; rfl)
    · cases h
  · cases h

theorem pyFloat_inv (s : List Char) (x : ℚ) (h : pyFloat s = some x) :
    ∃ n : Numeral, n.Ok ∧ n.text.map Char.toUpper = s ∧ n.value = x := by
  have key : ∃ n : Numeral, n.Ok ∧ s = signText n.sgn ++ (n.ip.map digitChar ++ (fpText n.fp ++ exUp n.ex)) := by
    simp only [pyFloat] at h
    split at h
    · cases h
    · rename_i hne
      cases he : exponent (fraction ((sign s).2.dropWhile Char.isDigit)).2 with
      | none => rw [he] at h; cases h
      | some e =>
        obtain ⟨ex, hex, hex'⟩ := exponent_inv _ _ he
        obtain ⟨sg, hsg⟩ := sign_inv s
        obtain ⟨ip, hip⟩ := takeWhile_map (sign s).2
        have hsplit := List.takeWhile_append_dropWhile (p := Char.isDigit) (l := (sign s).2)
        have hfr : ∃ fp, (sign s).2.dropWhile Char.isDigit = fpText fp ++
            (fraction ((sign s).2.dropWhile Char.isDigit)).2 ∧
            ((fraction ((sign s).2.dropWhile Char.isDigit)).1 ≠ [] → ∃ f, fp = some f ∧ f ≠ []) := by
          generalize (sign s).2.dropWhile Char.isDigit = r
          unfold fraction
          split
          · rename_i r'
            obtain ⟨f, hf⟩ := takeWhile_map r'
            refine ⟨some f, ?_, ?_⟩
            · simp only [fpText, List.cons_append]
              rw [← hf, List.takeWhile_append_dropWhile]
            · intro h0
              refine ⟨f, rfl, ?_⟩
              rintro rfl
              exact h0 (by simpa using hf)
          · exact ⟨none, by simp [fpText], fun h0 => absurd rfl h0⟩
        obtain ⟨fp, hfp, hfp'⟩ := hfr
        refine ⟨⟨sg, ip, fp, ex⟩, ⟨?_, hex'⟩, ?_⟩
        · by_cases h0 : ip = []
          · right
            refine hfp' fun h1 => hne ⟨?_, h1⟩
            rw [hip, h0]; rfl
          · exact Or.inl h0
        · rw [hex] at hfp
          simp only
          rw [← hfp, ← hip, hsplit, ← hsg]
  obtain ⟨n, hn, hs⟩ := key
  refine ⟨n, hn, ?_, ?_⟩
  · rw [text_upper, hs]
  · have := pyFloat_text n hn
    rw [← hs, h] at this
    exact (Option.some.inj this).symm

/-- C35: a string is accepted only if it consists, between optional blanks and up to letter case, of a
numeral and a suffix from the table, and then has the value of the numeral times the factor. -/
theorem C35_accepted (s : List Char) (v : ℚ) (h : convertUnits s = .ok v) :
    ∃ n : Numeral, n.Ok ∧ ∃ e ∈ table, (strip s).map Char.toUpper = n.text.map Char.toUpper ++ e.1.toList ∧
      v = n.value * e.2 := by
  obtain ⟨num, suffix, x, e, he, h1, -, hx, h3, h4⟩ := C35_only_documented s v h
  obtain ⟨n, hn, ht, hv⟩ := pyFloat_inv _ _ hx
  exact ⟨n, hn, e, he, by rw [h1, List.map_append, ht, h3], by rw [h4, hv]⟩

/-- C35: an unknown suffix after a numeral is refused. -/
theorem C35_unknown_suffix (n : Numeral) (hn : n.Ok) (suffix : List Char)
    (hhead : ∀ c, suffix.head? = some c → numChar c.toUpper = false)
    (hwhite : ∀ c ∈ suffix, c.isWhitespace = false)
    (hunk : ∀ e ∈ table, suffix.map Char.toUpper ≠ e.1.toList) :
    convertUnits (n.text ++ suffix) = .error .value := by
  cases hc : convertUnits (n.text ++ suffix) with
  | error e =>
    cases e with
    | value => rfl
    | parse =>
      exfalso
      unfold convertUnits at hc
      split at hc
      · rename_i he
        have hpf := pyFloat_text n hn
        rw [← text_upper, (List.append_eq_nil_iff.1 he).1] at hpf
        simp [pyFloat, sign, fraction] at hpf
      · simp only at hc
        split at hc
        · cases hc
        · split at hc
          · cases hc
          · split at hc <;> cases hc
  | ok v =>
    exfalso
    unfold convertUnits at hc
    split at hc
    · cases hc
    · rename_i hne0
      have hne' : n.text ≠ [] := by
        intro h
        have hpf := pyFloat_text n hn
        rw [← text_upper, h] at hpf
        simp [pyFloat, sign, fraction] at hpf
      have hwt : ∀ c ∈ n.text, c.isWhitespace = false := by
        intro c hc
        by_contra hw
        have hw : c.isWhitespace = true := by simpa using hw
        have := numChar_text n c.toUpper (List.mem_map.2 ⟨c, hc, rfl⟩)
        rw [toUpper_white c hw] at this
        cases this
      have htake : ∀ (l r : List Char), (∀ c ∈ l, numChar c = true) →
          (∀ c, r.head? = some c → numChar c = false) →
          (l ++ r).takeWhile numChar = l ∧ (l ++ r).dropWhile numChar = r := by
        intro l r hl hr
        induction l with
        | nil =>
          cases r with
          | nil => simp
          | cons c r => simp [hr c rfl]
        | cons c l ih =>
          have := ih (fun c hc => hl c (List.mem_cons_of_mem _ hc))
          simp [hl c (by simp), this]
      have ht := htake _ (suffix.map Char.toUpper) (numChar_text n) (by
        intro c hc
        cases suffix with
        | nil => simp at hc
        | cons d r => simp at hc; rw [← hc]; exact hhead d rfl)
      simp only [strip_append _ _ hne' hwt hwhite, List.map_append, ht.1, ht.2] at hc
      split at hc
      · cases hc
      · split at hc
        · cases hc
        · split at hc
          · cases hc
          · rename_i f hf
            obtain ⟨e, he, hb, -⟩ := multiplier_table _ _ hf
            exact hunk e he hb

/-- `-2.50e+3` -/
def numDemo : Numeral := ⟨some true, [2], some [5, 0], some (false, some false, [3])⟩

example : numDemo.Ok := by
  constructor
  · left; decide
  · intro e he; cases he; decide
example : numDemo.text = "-2.50e+3".toList ∧ numDemo.value = -2500 := by
  constructor
  · decide +kernel
  · decide +kernel
example : ("mEg".toList).map Char.toUpper = "MEG".toList := by decide +kernel
example : convertUnits "-2.50e+3mEg".toList = .ok (-2500000000) := by decide +kernel
example : convertUnits " 1mil ".toList = .ok (254 / 10^7) := by decide +kernel
example : convertUnits "1kohm".toList = .error .value := by decide +kernel
example : convertUnits "k".toList = .error .value := by decide +kernel
example : convertUnits "1e".toList = .error .value := by decide +kernel

end Verif.Units
