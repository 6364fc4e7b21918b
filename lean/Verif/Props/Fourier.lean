import Verif.Model.Fourier
import Verif.Props.Directive
import Mathlib.Algebra.Field.GeomSum
import Mathlib.RingTheory.RootsOfUnity.Complex
import Mathlib.Data.Rat.Floor
import Mathlib.Tactic.Linarith
import Mathlib.Tactic.LinearCombination
import Mathlib.Tactic.FieldSimp
import Mathlib.Tactic.Positivity

/-!
C56, C57, C100-C107: the Fourier post-processing.
-/

namespace Verif.Fourier
open Verif.Small Verif.Directive

/-! ### C56 -/

/-- C56: the number of points of the FFT is the power of two that follows the number asked for. -/
theorem C56_power (np : ℕ) (h : 2 ≤ np) :
    ∃ k, np2 np = 2 ^ (k + 1) ∧ 2 ^ k < np ∧ np ≤ 2 ^ (k + 1) := by
  have hnp : (2 : ℝ) ≤ np := by exact_mod_cast h
  have hpos : (0 : ℝ) < (np : ℝ) - 1 := by linarith
  have h1 : (1 : ℝ) ≤ (np : ℝ) - 1 := by linarith
  have hlog : 0 ≤ Real.logb 2 ((np : ℝ) - 1) := Real.logb_nonneg (by norm_num) h1
  refine ⟨⌊Real.logb 2 ((np : ℝ) - 1)⌋₊, ?_, ?_, ?_⟩
  · unfold np2
    rw [if_neg (by linarith), show (1 : ℝ) = ((1 : ℕ) : ℝ) from by norm_num,
      Nat.floor_add_natCast (by simpa using hlog)]
  · have hfl := Nat.floor_le hlog
    have : (2 : ℝ) ^ ((⌊Real.logb 2 ((np : ℝ) - 1)⌋₊ : ℕ) : ℝ) ≤ (np : ℝ) - 1 := by
      rw [← Real.le_logb_iff_rpow_le (by norm_num) hpos]
      exact hfl
    rw [Real.rpow_natCast] at this
    have h2 : ((2 ^ ⌊Real.logb 2 ((np : ℝ) - 1)⌋₊ : ℕ) : ℝ) < (np : ℝ) := by
      push_cast
      linarith
    exact_mod_cast h2
  · have hfl := Nat.lt_floor_add_one (Real.logb 2 ((np : ℝ) - 1))
    have : (np : ℝ) - 1 < (2 : ℝ) ^ (((⌊Real.logb 2 ((np : ℝ) - 1)⌋₊ + 1 : ℕ)) : ℝ) := by
      rw [← Real.logb_lt_iff_lt_rpow (by norm_num) hpos]
      push_cast
      exact hfl
    rw [Real.rpow_natCast] at this
    have h2 : (np : ℝ) < ((2 ^ (⌊Real.logb 2 ((np : ℝ) - 1)⌋₊ + 1) + 1 : ℕ) : ℝ) := by
      push_cast
      linarith
    have h3 : np < 2 ^ (⌊Real.logb 2 ((np : ℝ) - 1)⌋₊ + 1) + 1 := by exact_mod_cast h2
    omega

/-- C56: at least two points. -/
theorem C56_small (np : ℕ) (h : np < 2) : np2 np = 2 := by
  have : (np : ℝ) < 2 := by exact_mod_cast h
  unfold np2
  rw [if_pos this]

/-- C56: powers of two are used as they are. -/
theorem C56_exact (k : ℕ) (h : 1 ≤ k) : np2 ((2 ^ k : ℕ) : ℝ) = 2 ^ k := by
  have h2 : 2 ≤ 2 ^ k := by
    calc 2 = 2 ^ 1 := by norm_num
      _ ≤ 2 ^ k := Nat.pow_le_pow_right (by norm_num) h
  obtain ⟨j, hj, h1, h3⟩ := C56_power (2 ^ k) h2
  have hlt : j < k := (Nat.pow_lt_pow_iff_right (by norm_num)).1 h1
  have hle : k ≤ j + 1 := (Nat.pow_le_pow_iff_right (by norm_num)).1 h3
  rw [hj, show j + 1 = k from by omega]

/-- C56 is false for numbers that are not integers, which `np=` accepts: 2.5 gives 2 points. -/
theorem C56_fraction_refuted : ¬ ∀ x : ℝ, 2 ≤ x → x ≤ np2 x := by
  intro h
  have h1 := h 2.5 (by norm_num)
  have : np2 2.5 = 2 := by
    have hl : ⌊Real.logb 2 ((2.5 : ℝ) - 1) + 1⌋₊ = 1 := by
      have a : 0 ≤ Real.logb 2 ((2.5 : ℝ) - 1) := Real.logb_nonneg (by norm_num) (by norm_num)
      have b : Real.logb 2 ((2.5 : ℝ) - 1) < 1 := by
        rw [Real.logb_lt_iff_lt_rpow (by norm_num) (by norm_num)]
        norm_num
      rw [Nat.floor_eq_iff (by linarith)]
      constructor <;> push_cast <;> linarith
    unfold np2
    rw [if_neg (by norm_num), hl]
    norm_num
  rw [this] at h1
  norm_num at h1

example : np2 1000 = 1024 := by
  obtain ⟨k, h1, h2, h3⟩ := C56_power 1000 (by norm_num)
  have : k = 9 := by
    have a : k < 10 := by
      by_contra hk
      have := Nat.pow_le_pow_right (n := 2) (by norm_num) (show 10 ≤ k by omega)
      omega
    have b : 8 < k := by
      by_contra hk
      have := Nat.pow_le_pow_right (n := 2) (by norm_num) (show k + 1 ≤ 9 by omega)
      omega
    omega
  subst this
  norm_num at h1
  exact_mod_cast h1

/-! ### C57 and C100: the directive -/

/-- The parameter of `spicefft` (or of the printing function) that has the documented meaning of a
parameter of the directive. -/
def meaning : String → String
  | "format" => "uformat"
  | l => l

theorem loop_index (ps : List Tok) (h : ∀ t ∈ ps, t.pos = none) (tokens : List (List Char)) :
    ∀ (i j : Nat) (an : Dict), loop ps i tokens an = loop ps j tokens an := by
  induction tokens generalizing ps with
  | nil => intros; rfl
  | cons tok rest ih =>
    intro i j an
    have hfits : ∀ label, ps.find? (fits i label) = ps.find? (fits j label) := by
      intro label
      have : ∀ qs : List Tok, (∀ t ∈ qs, t.pos = none) →
          qs.find? (fits i label) = qs.find? (fits j label) := by
        intro qs
        induction qs with
        | nil => intro _; rfl
        | cons q qs ih =>
          intro hq
          have e : fits i label q = fits j label q := by
            unfold fits
            rw [hq q (by simp)]
            simp
          rw [List.find?_cons, List.find?_cons, e, ih (fun t ht => hq t (by simp [ht]))]
      exact this ps h
    simp only [loop]
    split
    · rfl
    · rw [hfits]
      cases ps.find? (fits j (split tok).1) with
      | none => rfl
      | some t =>
        simp only
        cases convert (split tok).2 t.type with
        | none => rfl
        | some v => exact ih (ps.erase t) (fun t' ht' => h t' (List.mem_of_mem_erase ht')) _ _ _

/-- The specification without the variable. -/
abbrev specTail : List Tok := specFft.tail

theorem specTail_good : Good specTail :=
  ⟨by decide +kernel, by decide +kernel, by decide +kernel, by decide +kernel⟩

/-- The dictionary after the variable has been read. -/
def afterVar (var : List Char) : Dict :=
  Dict.set (fun k => if k = "type" then some (txt "fft") else none) "label" (some (.text var))

/-- A line that starts with the variable. -/
theorem parseFft_eq (var : List Char) (rest : List (List Char)) (hv : isParam var = false)
    (hc : var.head? ≠ some '*') (fpv : Dict) :
    parseFft (var :: rest) = .ok fpv ↔ Directive.bind specTail rest (afterVar var) = some fpv := by
  have hs : split var = (none, var) := by unfold split; rw [if_neg (by simp [hv])]
  have hl : loop specFft 0 (var :: rest) (fun k => if k = "type" then some (txt "fft") else none) =
      loop specTail 0 rest (afterVar var) := by
    rw [loop_index specTail (by decide +kernel) rest 0 1]
    simp only [loop]
    rw [if_neg hc, hs]
    rfl
  unfold parseFft Directive.bind
  rw [hl]
  cases loop specTail 0 rest (afterVar var) with
  | none => simp
  | some r =>
    obtain ⟨ps, an⟩ := r
    simp only
    cases finish ps an with
    | none => simp
    | some f => simp

/-- The value of a token `l=v` in an accepted line. -/
theorem fft_value (var : List Char) (rest : List (List Char)) (hv : isParam var = false)
    (hc : NoComment (var :: rest)) (fpv : Dict) (h : parseFft (var :: rest) = .ok fpv)
    (j : Nat) (hj : j < rest.length) (l : String) (v : List Char)
    (hs : split rest[j] = (some l, v)) :
    ∃ p ∈ specTail, p.label = some l ∧ fpv p.dest = some (convert v p.type) := by
  rw [parseFft_eq var rest hv (hc var (by simp))] at h
  obtain ⟨bs, ha, -, hval, -, -⟩ := C36_binds specTail specTail_good rest
    (fun t ht => hc t (by simp [ht])) _ _ h
  have hb : j < bs.length := by rw [ha.1]; exact hj
  obtain ⟨hm, hd, -⟩ := ha.2 j hb hj
  refine ⟨bs[j], hm, ?_, ?_⟩
  · unfold Designates at hd
    rw [hs] at hd
    rcases hd with hd | ⟨hd, -⟩
    · obtain ⟨x, hx⟩ := Option.ne_none_iff_exists'.1 (specTail_good.named _ hm)
      rw [hx] at hd ⊢
      simpa using hd.symm
    · cases hd
  · rw [hval j hb hj]
    unfold valueFor
    rw [hs]

/-- C57: in an accepted line every value except `start=` and `stop=` reaches the parameter it
names. Missing: `start` and `stop` (`C57_swapped_refuted`). -/
theorem C57_parameters_partial (var : List Char) (rest : List (List Char))
    (hv : isParam var = false) (hc : NoComment (var :: rest)) (fpv : Dict)
    (h : parseFft (var :: rest) = .ok fpv) (j : Nat) (hj : j < rest.length) (l : String)
    (v : List Char) (hs : split rest[j] = (some l, v)) (h1 : l ≠ "start") (h2 : l ≠ "stop") :
    fpv (meaning l) = some (if l = "format" ∨ l = "window" then some (.text v)
      else convert v .float) := by
  obtain ⟨p, hp, hl, hval⟩ := fft_value var rest hv hc fpv h j hj l v hs
  have key : ∀ p ∈ specTail, ∀ l, p.label = some l → l ≠ "start" → l ≠ "stop" →
      p.dest = meaning l ∧ ((l = "format" ∨ l = "window") → p.type = .str) ∧
      (¬ (l = "format" ∨ l = "window") → p.type = .float) := by
    intro p hp l hl
    have hl' : l = p.label.getD "" := by rw [hl]; rfl
    subst hl'
    revert p
    decide +kernel
  obtain ⟨e1, e2, e3⟩ := key p hp l hl h1 h2
  rw [← e1, hval]
  by_cases hf : l = "format" ∨ l = "window"
  · rw [if_pos hf, e2 hf]
    rfl
  · rw [if_neg hf, e3 hf]

/-- C57: the variable is kept. -/
theorem C57_variable (var : List Char) (rest : List (List Char))
    (hv : isParam var = false) (hc : NoComment (var :: rest)) (fpv : Dict)
    (h : parseFft (var :: rest) = .ok fpv) : fpv "label" = some (some (.text var)) := by
  rw [parseFft_eq var rest hv (hc var (by simp))] at h
  obtain ⟨bs, -, -, -, -, hother⟩ := C36_binds specTail specTail_good rest
    (fun t ht => hc t (by simp [ht])) _ _ h
  rw [hother "label" (by decide +kernel)]
  rfl

/-- C57 is false for the interval: in every accepted line the value of `start=` becomes the
parameter `stop`, and the value of `stop=` the parameter `start`. -/
theorem C57_swapped_refuted (var : List Char) (rest : List (List Char))
    (hv : isParam var = false) (hc : NoComment (var :: rest)) (fpv : Dict)
    (h : parseFft (var :: rest) = .ok fpv) (j : Nat) (hj : j < rest.length) (v : List Char) :
    (split rest[j] = (some "start", v) → fpv "stop" = some (convert v .float)) ∧
    (split rest[j] = (some "stop", v) → fpv "start" = some (convert v .float)) := by
  constructor
  · intro hs
    obtain ⟨p, hp, hl, hval⟩ := fft_value var rest hv hc fpv h j hj _ v hs
    have key : ∀ p ∈ specTail, p.label = some "start" → p.dest = "stop" ∧ p.type = .float := by
      decide +kernel
    obtain ⟨e1, e2⟩ := key p hp hl
    rw [← e1, hval, e2]
  · intro hs
    obtain ⟨p, hp, hl, hval⟩ := fft_value var rest hv hc fpv h j hj _ v hs
    have key : ∀ p ∈ specTail, p.label = some "stop" → p.dest = "start" ∧ p.type = .float := by
      decide +kernel
    obtain ⟨e1, e2⟩ := key p hp hl
    rw [← e1, hval, e2]

/-- Value of a key of the dictionary of a parsed line. -/
def keyOf (o : FftOut) (k : String) : Option (Option Val) :=
  match o with
  | .ok fpv => fpv k
  | _ => none

/-- C57: the example of the documentation, and the interval that results for a simulation from
0 to 2 us. -/
theorem C57_interval_refuted :
    (match parseFft ["v(n1,n2)".toList, "np=1024".toList, "start=0.2u".toList,
        "stop=1.5u".toList, "window=hann".toList] with
      | .ok fpv => interval fpv (.num 0) (.num (2 / 1000000))
      | _ => none) = some (.num (3 / 2000000), .num (1 / 5000000)) := by
  decide +kernel

/-- C57: with `from=` and `to=` the interval is the one asked for. -/
example :
    (match parseFft ["v(n1,n2)".toList, "np=1024".toList, "from=0.2u".toList,
        "to=1.5u".toList, "window=hann".toList] with
      | .ok fpv => interval fpv (.num 0) (.num (2 / 1000000))
      | _ => none) = some (.num (1 / 5000000), .num (3 / 2000000)) := by
  decide +kernel

/-- C57: `from` and `to`, given in an accepted line without `start` and `stop`, are the interval. -/
theorem C57_from_to (var : List Char) (rest : List (List Char))
    (hv : isParam var = false) (hc : NoComment (var :: rest)) (fpv : Dict)
    (h : parseFft (var :: rest) = .ok fpv) (j k : Nat) (hj : j < rest.length) (hk : k < rest.length)
    (v w : List Char) (x y : ℚ) (hx : convert v .float = some (.num x))
    (hy : convert w .float = some (.num y)) (hs : split rest[j] = (some "from", v))
    (ht : split rest[k] = (some "to", w))
    (hno : ∀ t ∈ rest, (split t).1 ≠ some "start" ∧ (split t).1 ≠ some "stop") (t0 t1 : Val) :
    interval fpv t0 t1 = some (.num x, .num y) := by
  have h1 := C57_parameters_partial var rest hv hc fpv h j hj _ v hs (by decide) (by decide)
  have h2 := C57_parameters_partial var rest hv hc fpv h k hk _ w ht (by decide) (by decide)
  have e1 : meaning "from" = "from" := by decide
  have e2 : meaning "to" = "to" := by decide
  rw [e1, if_neg (by decide), hx] at h1
  rw [e2, if_neg (by decide), hy] at h2
  rw [parseFft_eq var rest hv (hc var (by simp))] at h
  obtain ⟨bs, ha, -, -, hrest, -⟩ := C36_binds specTail specTail_good rest
    (fun t ht => hc t (by simp [ht])) _ _ h
  have none_of : ∀ p ∈ specTail, (p.label = some "start" ∨ p.label = some "stop") →
      fpv p.dest = some p.default := by
    intro p hp hpl
    apply (hrest p hp ?_).2
    intro hb
    obtain ⟨i, hi, hie⟩ := List.getElem_of_mem hb
    have hi' : i < rest.length := by rw [← ha.1]; exact hi
    obtain ⟨-, hd, -⟩ := ha.2 i hi hi'
    rw [hie] at hd
    have hn := hno rest[i] (List.getElem_mem hi')
    unfold Designates at hd
    rcases hpl with hpl | hpl <;> rw [hpl] at hd
    · rcases hd with hd | ⟨-, hd⟩
      · exact hn.1 (by simpa using hd)
      · have : ∀ p ∈ specTail, p.pos = none := by decide +kernel
        rw [this p hp] at hd
        cases hd
    · rcases hd with hd | ⟨-, hd⟩
      · exact hn.2 (by simpa using hd)
      · have : ∀ p ∈ specTail, p.pos = none := by decide +kernel
        rw [this p hp] at hd
        cases hd
  have s1 := none_of ⟨some "start", none, .float, false, "stop", none⟩ (by decide +kernel) (.inl rfl)
  have s2 := none_of ⟨some "stop", none, .float, false, "start", none⟩ (by decide +kernel) (.inr rfl)
  simp only at s1 s2
  simp [interval, resolve, s1, s2, h1, h2]

/-- C57: called with neither of two synonyms, `spicefft` takes all of the results; a value given for the first is taken
whatever the second, and one given for the second if the first is missing or `None`. -/
theorem C57_synonyms (args : Dict) (t0 t1 : Val) :
    (args "start" = none → args "from" = none → args "stop" = none → args "to" = none →
      interval args t0 t1 = some (t0, t1)) ∧
    (∀ a b, args "start" = some (some a) → args "stop" = some (some b) → interval args t0 t1 = some (a, b)) ∧
    (∀ a b, (args "start").join = none → (args "stop").join = none → args "from" = some (some a) →
      args "to" = some (some b) → interval args t0 t1 = some (a, b)) ∧
    (∀ a b, args "start" = some (some a) → args "from" = none → (args "stop").join = none → args "to" = some (some b) →
      interval args t0 t1 = some (a, b)) := by
  refine ⟨fun h1 h2 h3 h4 => ?_, fun a b h1 h2 => ?_, fun a b h1 h2 h3 h4 => ?_, fun a b h1 h2 h3 h4 => ?_⟩
  · simp [interval, resolve, h1, h2, h3, h4]
  · simp [interval, resolve, h1, h2]
  · cases e1 : args "start" with
    | none =>
      cases e2 : args "stop" with
      | none => simp [interval, resolve, e1, e2, h3, h4]
      | some y => cases y <;> simp_all [interval, resolve]
    | some x =>
      cases x with
      | none =>
        cases e2 : args "stop" with
        | none => simp [interval, resolve, e1, e2, h3, h4]
        | some y => cases y <;> simp_all [interval, resolve]
      | some x => simp_all
  · cases e2 : args "stop" with
    | none => simp [interval, resolve, h1, h2, e2, h4]
    | some y => cases y <;> simp_all [interval, resolve]


/-- C57: the parameter `alfa`, as the syntax of the manual spells it, raises KeyError. -/
theorem C57_alfa_refuted (var v : List Char) (rest : List (List Char))
    (hv : isParam var = false) (hc : NoComment (var :: rest)) (j : Nat) (hj : j < rest.length)
    (hs : split rest[j] = (some "alfa", v)) (fpv : Dict) : parseFft (var :: rest) ≠ .ok fpv := by
  intro h
  obtain ⟨p, hp, hl, -⟩ := fft_value var rest hv hc fpv h j hj _ v hs
  have key : ∀ p ∈ specTail, p.label ≠ some "alfa" := by decide +kernel
  exact key p hp hl

example : (match parseFft ["v(n1)".toList, "window=kaiser".toList, "alfa=2".toList] with
    | .keyError => true | _ => false) = true := by decide +kernel

/-- C100 is false: every accepted line without `np=` uses an FFT of 2 points. -/
theorem C100_default_refuted (var : List Char) (rest : List (List Char))
    (hv : isParam var = false) (hc : NoComment (var :: rest)) (fpv : Dict)
    (h : parseFft (var :: rest) = .ok fpv) (hno : ∀ t ∈ rest, (split t).1 ≠ some "np") :
    points fpv = some 2 := by
  rw [parseFft_eq var rest hv (hc var (by simp))] at h
  obtain ⟨bs, ha, -, -, hrest, -⟩ := C36_binds specTail specTail_good rest
    (fun t ht => hc t (by simp [ht])) _ _ h
  have hnp := (hrest ⟨some "np", none, .float, false, "np", num 0⟩ (by decide +kernel) (by
    intro hb
    obtain ⟨i, hi, hie⟩ := List.getElem_of_mem hb
    have hi' : i < rest.length := by rw [← ha.1]; exact hi
    obtain ⟨-, hd, -⟩ := ha.2 i hi hi'
    rw [hie] at hd
    rcases hd with hd | ⟨-, hd⟩
    · exact hno _ (List.getElem_mem hi') (by simpa using hd)
    · cases hd)).2
  simp only [num] at hnp
  unfold points
  rw [hnp]
  have := C56_small 0 (by norm_num)
  simpa using this

example : ∃ fpv, parseFft ["v(n1)".toList] = .ok fpv := by
  refine ⟨_, (parseFft_eq "v(n1)".toList [] (by decide +kernel) (by decide +kernel) _).2 rfl⟩

/-- C100: without the directive the default is 1024, and `np=` in a line is used. -/
theorem C100_given_partial (args : Dict) :
    (args "np" = none → points args = some 1024) ∧
    (∀ x : ℚ, args "np" = some (num x) → points args = some (np2 x)) := by
  unfold points
  constructor
  · intro h; rw [h]
  · intro x h; rw [h]; rfl

/-! ### Frequencies -/

section axes
variable {K : Type} [Field K] [LinearOrder K] [IsStrictOrderedRing K] [FloorRing K]

theorem lt_every (p L i : Nat) (hp : 0 < p) : i < (L + p - 1) / p ↔ i * p < L := by
  rw [Nat.lt_iff_add_one_le, Nat.le_div_iff_mul_le hp]
  have : (i + 1) * p = i * p + p := by ring
  omega

theorem every_map {α : Type} (p L : Nat) (hp : 0 < p) (g : Nat → α) :
    every p ((List.range L).map g) = (List.range ((L + p - 1) / p)).map (fun i => g (i * p)) := by
  unfold every
  rw [List.length_map, List.length_range]
  refine Eq.trans ?_ (congrFun (List.filterMap_eq_map (f := fun i => g (i * p))) _)
  apply List.filterMap_congr
  intro i hi
  have : i * p < L := (lt_every p L i hp).1 (List.mem_range.1 hi)
  simp [this]

theorem take_map_range {α : Type} (k L : Nat) (h : k ≤ L) (g : Nat → α) :
    ((List.range L).map g).take k = (List.range k).map g := by
  rw [← List.map_take, List.take_range, min_eq_left h]

theorem fNum_eq (p : Nat) (fund : K) (hf : 0 < fund) : fNum p fund = 20 * p := by
  unfold fNum fSampling
  have : (p / fund) / (1 / (2 * 10 * fund)) = ((20 * p : ℕ) : K) := by
    push_cast
    field_simp
    ring
  rw [this, Nat.floor_natCast]

/-- C103: `.four` reports DC and the first nine harmonics of the fundamental, and the values are
the bins of the transform at those frequencies. -/
theorem C103_frequencies (p : Nat) (hp : 0 < p) (fund : K) (hf : 0 < fund) :
    fFreqs p fund = (List.range 10).map (fun (j : Nat) => (j : K) * fund) := by
  unfold fFreqs fftfreq
  rw [fNum_eq p fund hf, every_map p _ hp]
  have hlen : (20 * p + p - 1) / p = 20 := by
    apply Nat.le_antisymm
    · have := Nat.div_lt_iff_lt_mul (x := 20 * p + p - 1) (y := 21) hp
      have h2 : (20 * p + p - 1) / p < 21 := this.2 (by omega)
      omega
    · rw [Nat.le_div_iff_mul_le hp]; omega
  rw [hlen]
  simp only [List.length_map, List.length_range]
  rw [show 20 / 2 = 10 from rfl, take_map_range 10 20 (by norm_num)]
  apply List.map_congr_left
  intro j hj
  have hj10 : j < 10 := List.mem_range.1 hj
  have h1 : j * p < (20 * p + 1) / 2 := by
    have : j * p ≤ 9 * p := Nat.mul_le_mul_right p (by omega)
    omega
  rw [if_pos h1]
  unfold fSampling
  have hpK : (p : K) ≠ 0 := by exact_mod_cast hp.ne'
  push_cast
  field_simp
  ring

theorem rfftInit_eq (N : Nat) (x : Nat → ℂ) :
    rfftInit N x = (List.range (N / 2)).map (dft N x) := by
  unfold rfftInit
  rw [List.range_succ, List.map_append]
  simp

theorem dft_congr (N : Nat) {x y : Nat → ℂ} (h : ∀ m < N, x m = y m) (k : Nat) : dft N x k = dft N y k :=
  Finset.sum_congr rfl fun m hm => by rw [h m (Finset.mem_range.1 hm)]

/-- the samples at evenly spaced times -/
theorem rfft_samples (v : ℝ → ℝ) (start stop : ℝ) (N : Nat) : rfftInit (linspace start stop N).length (samples v (linspace start stop N)) =
    (List.range (N / 2)).map (dft N fun m => v (start + m * ((stop - start) / N))) := by
  have hl : (linspace start stop N).length = N := by simp [linspace]
  rw [hl, rfftInit_eq]
  refine List.map_congr_left fun k _ => dft_congr N (fun m hm => ?_) k
  simp [samples, linspace, hm]

/-- C103: the values. -/
theorem C103_values (p : Nat) (hp : 0 < p) (fund tstop : ℝ) (hf : 0 < fund) (v : ℝ → ℝ) :
    fValues p fund tstop v = (List.range 10).map (fun j =>
      dft (20 * p) (fun m => v (tstop - p / fund + m * ((p / fund) / (20 * p)))) (j * p)) := by
  unfold fValues
  rw [fNum_eq p fund hf]
  simp only
  rw [rfft_samples, every_map p _ hp, show 20 * p / 2 = 10 * p from by omega]
  have hlen : (10 * p + p - 1) / p = 10 := by
    apply Nat.le_antisymm
    · have := Nat.div_lt_iff_lt_mul (x := 10 * p + p - 1) (y := 11) hp
      have h2 : (10 * p + p - 1) / p < 11 := this.2 (by omega)
      omega
    · rw [Nat.le_div_iff_mul_le hp]; omega
  rw [hlen]
  apply List.map_congr_left
  intro j _
  congr 1
  funext m
  push_cast
  congr 3
  ring

theorem sNum_eq (n : Nat) (freq : K) (hn : 0 < n) (hf : 0 < freq) :
    sNum n freq = 2 * n * n + 1 := by
  unfold sNum sSampling
  have hnK : (n : K) ≠ 0 := by exact_mod_cast hn.ne'
  have : (n / freq) / (1 / (2 * freq * n)) = ((2 * n * n : ℕ) : K) := by
    push_cast
    field_simp
  rw [this, Nat.floor_natCast]

theorem half_len (n : Nat) (hn : 0 < n) : (n * n + n - 1) / n = n := by
  apply Nat.le_antisymm
  · have h2 : (n * n + n - 1) / n < n + 1 :=
      (Nat.div_lt_iff_lt_mul hn).2 (by rw [Nat.add_mul]; omega)
    omega
  · rw [Nat.le_div_iff_mul_le hn]; omega

/-- C101: the frequencies reported by `spicefft` with `freq`, for `n` periods in the interval. They
are proportional to the harmonics. Missing: they are not harmonics and their number depends on the
interval (`C101_harmonics_refuted`, `C101_number_refuted`). -/
theorem C101_frequencies_partial (n : Nat) (hn : 0 < n) (freq : K) (hf : 0 < freq) :
    sFreqs n freq =
      (List.range n).map (fun (j : Nat) => j * freq * (2 * n * n / (2 * n * n + 1))) := by
  unfold sFreqs fftfreq
  rw [sNum_eq n freq hn hf]
  simp only [List.length_map, List.length_range]
  rw [show (2 * n * n + 1) / 2 = n * n from by rw [mul_assoc]; omega,
    take_map_range (n * n) _ (by rw [mul_assoc]; omega), every_map n _ hn, half_len n hn]
  apply List.map_congr_left
  intro j hj
  have hjn : j < n := List.mem_range.1 hj
  have h1 : j * n < (2 * n * n + 1 + 1) / 2 := by
    have : j * n ≤ n * n := Nat.mul_le_mul_right n (by omega)
    rw [mul_assoc]; omega
  rw [if_pos h1]
  unfold sSampling
  have hnK : (n : K) ≠ 0 := by exact_mod_cast hn.ne'
  have hden : (2 * (n : K) * n + 1) ≠ 0 := by positivity
  push_cast
  field_simp

/-- C101 is false: whatever the fundamental and the interval, no reported frequency other than DC
is the harmonic. -/
theorem C101_harmonics_refuted (n : Nat) (freq : K) (hf : 0 < freq) (j : Nat) (hj : j < n)
    (hj0 : 0 < j) : (sFreqs n freq)[j]? ≠ some (j * freq) := by
  rw [C101_frequencies_partial n (by omega) freq hf]
  simp only [List.getElem?_map, List.getElem?_range hj, Option.map_some, ne_eq, Option.some.injEq]
  intro h
  have hjK : (0 : K) < j := by exact_mod_cast hj0
  have h1 : (2 * (n : K) * n / (2 * n * n + 1)) = 1 := by
    have hjf : (j : K) * freq ≠ 0 := by positivity
    exact mul_left_cancel₀ hjf (by rw [h, mul_one])
  have hden : (2 * (n : K) * n + 1) ≠ 0 := by positivity
  rw [div_eq_one_iff_eq hden] at h1
  linarith

/-- C101 is false as to the number of harmonics: it is the number of periods in the interval. -/
theorem C101_number_refuted (n : Nat) (hn : 0 < n) (h10 : n ≠ 10) (freq : K) (hf : 0 < freq) :
    (sFreqs n freq).length ≠ 10 := by
  rw [C101_frequencies_partial n hn freq hf]
  simpa using h10

example : sFreqs 3 (1000 : ℚ) = [0, 18000 / 19, 36000 / 19] := by decide +kernel
example : fFreqs 2 (50 : ℚ) = [0, 50, 100, 150, 200, 250, 300, 350, 400, 450] := by decide +kernel

/-- C107: without `freq` the frequencies are the multiples of the inverse of the interval, up to
half the sampling rate. -/
theorem C107_frequencies (start stop : K) (h : start < stop) (N : Nat) (hN : 0 < N) :
    plainFreqs start stop N =
      (List.range (N / 2)).map (fun (k : Nat) => (k : K) / (stop - start)) := by
  unfold plainFreqs fftfreq
  simp only [List.length_map, List.length_range]
  rw [take_map_range _ _ (Nat.div_le_self _ _)]
  apply List.map_congr_left
  intro k hk
  have hk' := List.mem_range.1 hk
  rw [if_pos (by omega)]
  have hNK : (N : K) ≠ 0 := by exact_mod_cast hN.ne'
  have hd : stop - start ≠ 0 := by linarith [h] |> fun (_ : stop - start > 0) => by positivity
  field_simp

/-- C107: as many values as frequencies, the transform of `N` samples from the start of the interval on. -/
theorem C107_values (start stop : ℝ) (N : Nat) (v : ℝ → ℝ) :
    plainValues start stop N v =
      (List.range (N / 2)).map (dft N fun m => v (start + m * ((stop - start) / N))) := rfft_samples v start stop N

/-- C101: as many whole periods as fit are used; the samples are from within the interval. -/
theorem C101_periods (start stop freq : K) (hf : 0 < freq) (h : start ≤ stop) :
    start ≤ stop - sPeriods start stop freq / freq ∧ stop - (sPeriods start stop freq + 1) / freq < start := by
  have h0 : 0 ≤ (stop - start) * freq := mul_nonneg (by linarith) hf.le
  have h1 := Nat.floor_le h0
  have h2 := Nat.lt_floor_add_one ((stop - start) * freq)
  unfold sPeriods
  constructor
  · have : (⌊(stop - start) * freq⌋₊ : K) / freq ≤ stop - start := (div_le_iff₀ hf).2 h1
    linarith
  · have : stop - start < ((⌊(stop - start) * freq⌋₊ : K) + 1) / freq := (lt_div_iff₀ hf).2 h2
    linarith

example : sPeriods (1 / 10 : ℚ) 4 1 = 3 := by decide +kernel

/-! ### C102 -/

omit [IsStrictOrderedRing K] in
theorem mem_periods (tstart tstop fund : K) (p : Nat) (h : nperiods tstart tstop fund = some p) :
    0 < p ∧ ∃ i ∈ [1, 3, 5, 7, 9], p = ⌊(tstop - tstart) / ((i : ℕ) / fund)⌋₊ := by
  unfold nperiods at h
  have hm := List.mem_of_getLast? h
  obtain ⟨h1, h2⟩ := List.mem_filter.1 hm
  obtain ⟨i, hi, he⟩ := List.mem_map.1 h1
  exact ⟨by simpa using h2, i, hi, he.symm⟩

/-- C102: whenever the simulation contains a period, a whole positive number of periods is used,
not longer than the simulation. -/
theorem C102_fits_partial (tstart tstop fund : K) (hf : 0 < fund) (h : tstart ≤ tstop) (p : Nat)
    (hp : nperiods tstart tstop fund = some p) : 1 ≤ p ∧ p / fund ≤ tstop - tstart := by
  obtain ⟨h0, i, hi, he⟩ := mem_periods _ _ _ _ hp
  refine ⟨h0, ?_⟩
  have hi1 : 1 ≤ i := by
    simp only [List.mem_cons, List.not_mem_nil, or_false] at hi
    omega
  have hiK : (1 : K) ≤ i := by exact_mod_cast hi1
  have hnn : (0 : K) ≤ (tstop - tstart) / ((i : ℕ) / fund) :=
    div_nonneg (by linarith) (by positivity)
  have hfl := Nat.floor_le hnn
  rw [← he] at hfl
  rw [div_le_iff₀ hf]
  have hip : (0 : K) < i := by linarith
  have e : (tstop - tstart) / ((i : ℕ) / fund) * i = (tstop - tstart) * fund := by
    field_simp
  have : (p : K) * i ≤ (tstop - tstart) * fund := by
    rw [← e]
    exact mul_le_mul_of_nonneg_right hfl hip.le
  have hp0 : (0 : K) ≤ p := Nat.cast_nonneg p
  nlinarith

/-- C102: there is an error exactly when the simulation is shorter than a period. -/
theorem C102_error (tstart tstop fund : K) :
    nperiods tstart tstop fund = none ↔ (tstop - tstart) * fund < 1 := by
  unfold nperiods
  rw [List.getLast?_eq_none_iff, List.filter_eq_nil_iff]
  have e : ∀ i : ℕ, (tstop - tstart) / ((i : ℕ) / fund) = (tstop - tstart) * fund / i := by
    intro i
    rw [div_div_eq_mul_div]
  constructor
  · intro h
    have := h ⌊(tstop - tstart) / ((1 : ℕ) / fund)⌋₊ (by simp)
    simp only [decide_eq_true_eq, not_lt, Nat.le_zero, Nat.floor_eq_zero] at this
    rw [e] at this
    simpa using this
  · intro h a ha
    obtain ⟨i, hi, rfl⟩ := List.mem_map.1 ha
    have hi1 : 1 ≤ i := by
      simp only [List.mem_cons, List.not_mem_nil, or_false] at hi
      omega
    have hiK : (1 : K) ≤ i := by exact_mod_cast hi1
    simp only [decide_eq_true_eq, not_lt, Nat.le_zero, Nat.floor_eq_zero]
    rw [e, div_lt_one (by linarith)]
    linarith

theorem getLast?_tail {α : Type} (a : α) (l : List α) (h : l ≠ []) :
    (a :: l).getLast? = l.getLast? := by
  cases l with
  | nil => exact absurd rfl h
  | cons b t => simp [List.getLast?_cons_cons]

/-- C102: with at least three periods in the simulation, at most a third of it is used. -/
theorem C102_half_partial (tstart tstop fund : K) (hf : 0 < fund)
    (h3 : 3 ≤ (tstop - tstart) * fund) (p : Nat) (hp : nperiods tstart tstop fund = some p) :
    2 * (p / fund) ≤ tstop - tstart := by
  have e : ∀ i : ℕ, (tstop - tstart) / ((i : ℕ) / fund) = (tstop - tstart) * fund / i := by
    intro i
    rw [div_div_eq_mul_div]
  have hpos3 : 0 < ⌊(tstop - tstart) / ((3 : ℕ) / fund)⌋₊ := by
    rw [Nat.floor_pos, e]
    push_cast
    linarith
  unfold nperiods at hp
  rw [List.map_cons] at hp
  have hne : (List.filter (fun x => decide (0 < x)) (List.map (fun (i : Nat) => ⌊(tstop - tstart) / (i / fund)⌋₊)
      [3, 5, 7, 9])) ≠ [] := by
    intro h
    have := List.filter_eq_nil_iff.1 h _ (List.mem_map.2 ⟨3, by simp, rfl⟩)
    exact this (by simpa using hpos3)
  have hp' : (List.filter (fun x => decide (0 < x)) (List.map (fun (i : Nat) => ⌊(tstop - tstart) / (i / fund)⌋₊)
      [3, 5, 7, 9])).getLast? = some p := by
    rw [List.filter_cons] at hp
    split at hp
    · rwa [getLast?_tail _ _ hne] at hp
    · exact hp
  have hm := List.mem_of_getLast? hp'
  obtain ⟨h1, -⟩ := List.mem_filter.1 hm
  obtain ⟨i, hi, he⟩ := List.mem_map.1 h1
  have hi3 : 3 ≤ i := by
    simp only [List.mem_cons, List.not_mem_nil, or_false] at hi
    omega
  have hiK : (3 : K) ≤ i := by exact_mod_cast hi3
  have hnn : (0 : K) ≤ (tstop - tstart) / ((i : ℕ) / fund) := by
    rw [e]
    exact div_nonneg (by linarith) (by linarith)
  have hfl := Nat.floor_le hnn
  rw [he] at hfl
  rw [e, le_div_iff₀ (by linarith)] at hfl
  have hp0 : (0 : K) ≤ p := Nat.cast_nonneg p
  rw [← mul_div_assoc, div_le_iff₀ hf]
  nlinarith

/-- C102 is false: a simulation of two periods is used completely, although one period would be
half of it. -/
theorem C102_half_refuted : nperiods (0 : ℚ) 2 1 = some 2 := by decide +kernel

/-- C102 is false: of nine periods a single one is used although four fit in one half. -/
theorem C102_most_refuted : nperiods (0 : ℚ) 9 1 = some 1 := by decide +kernel

example : nperiods (0 : ℚ) 100 1 = some 11 := by decide +kernel

/-! ### C104 -/

/-- In the band given by `fmin` (only if positive) and `fmax`. -/
def InBand (fmin fmax : Option K) (f : K) : Prop :=
  (∀ m, fmin = some m → 0 < m → m ≤ f) ∧ (∀ m, fmax = some m → f ≤ m)


omit [IsStrictOrderedRing K] [FloorRing K] in
/-- C104: what is kept is the DC component and the components in the band, each with its value, in
the same order. -/
theorem C104_kept {α : Type} (fmin fmax : Option K) (dc : α) (t l : List (K × α))
    (ht : ∀ x ∈ t, 0 < x.1) (h : keep fmin fmax ((0, dc) :: t) = some l) :
    ∃ t', l = (0, dc) :: t' ∧ t'.Sublist t ∧ ∀ x, x ∈ t' ↔ x ∈ t ∧ InBand fmin fmax x.1 := by
  unfold keep at h
  obtain ⟨l1, h1, h2⟩ := Option.bind_eq_some_iff.1 h
  have hl1 : ∃ t1, l1 = (0, dc) :: t1 ∧ t1.Sublist t ∧
      ∀ x, x ∈ t1 ↔ x ∈ t ∧ (∀ m, fmin = some m → 0 < m → m ≤ x.1) := by
    unfold keepMin at h1
    cases fmin with
    | none => simp only [Option.some.injEq] at h1; exact ⟨t, h1.symm, List.Sublist.refl _, by simp⟩
    | some m =>
      simp only at h1
      by_cases hm : 0 < m
      · rw [if_pos hm] at h1
        split at h1
        · cases h1
        · simp only [Option.some.injEq] at h1
          refine ⟨t.filter (fun x => m ≤ x.1), ?_, List.filter_sublist, ?_⟩
          · rw [← h1, List.filter_cons, if_neg (by simpa using hm)]
            rfl
          · intro x
            simp [List.mem_filter, hm]
      · rw [if_neg hm] at h1
        simp only [Option.some.injEq] at h1
        exact ⟨t, h1.symm, List.Sublist.refl _, by simp [hm]⟩
  obtain ⟨t1, rfl, hs1, hm1⟩ := hl1
  unfold keepMax at h2
  cases fmax with
  | none =>
    simp only [Option.some.injEq] at h2
    exact ⟨t1, h2.symm, hs1, fun x => by rw [hm1]; simp [InBand]⟩
  | some m =>
    simp only [List.drop_succ_cons, List.drop_zero] at h2
    split at h2
    · cases h2
    · rename_i hall
      simp only [Option.some.injEq] at h2
      simp only [List.all_eq_true, decide_eq_true_eq, not_forall, not_lt] at hall
      obtain ⟨x0, hx0, hx0m⟩ := hall
      have hm0 : 0 ≤ m := le_trans (ht x0 (hs1.mem hx0)).le hx0m
      refine ⟨t1.filter (fun x => x.1 ≤ m), ?_, List.filter_sublist.trans hs1, ?_⟩
      · rw [← h2, List.filter_cons, if_pos (by simpa using hm0)]
      · intro x
        rw [List.mem_filter, hm1]
        simp only [decide_eq_true_eq, InBand, Option.some.injEq]
        constructor
        · rintro ⟨⟨a, b⟩, c⟩
          exact ⟨a, b, fun m' hm' => hm' ▸ c⟩
        · rintro ⟨a, b, c⟩
          exact ⟨⟨a, b⟩, c m rfl⟩

omit [IsStrictOrderedRing K] [FloorRing K] in
/-- C104: a band without components is an error. -/
theorem C104_error {α : Type} (fmin fmax : Option K) (dc : α) (t : List (K × α))
    (hb : (∃ m, fmin = some m ∧ 0 < m) ∨ fmax ≠ none) :
    keep fmin fmax ((0, dc) :: t) = none ↔ ∀ x ∈ t, ¬ InBand fmin fmax x.1 := by
  unfold keep
  cases fmin with
  | none =>
    rcases hb with ⟨m, hm, -⟩ | hb
    · cases hm
    obtain ⟨M, rfl⟩ := Option.ne_none_iff_exists'.1 hb
    simp [keepMin, keepMax, InBand]
  | some m =>
    by_cases hm : 0 < m
    · simp only [keepMin, if_pos hm]
      by_cases hall : ((0, dc) :: t).all (fun x => decide (x.1 < m)) = true
      · rw [if_pos hall]
        simp only [Option.bind_none, true_iff]
        intro x hx hband
        have := List.all_eq_true.1 hall x (by simp [hx])
        simp only [decide_eq_true_eq] at this
        exact absurd (hband.1 m rfl hm) (not_le.2 this)
      · rw [if_neg hall]
        simp only [Option.bind_some, List.filter_cons, decide_eq_true_eq, not_le.2 hm, if_false,
          List.take_succ_cons, List.take_zero, List.cons_append, List.nil_append]
        cases fmax with
        | none =>
          simp only [keepMax, reduceCtorEq, false_iff, not_forall, not_not]
          simp only [List.all_cons, Bool.and_eq_true, decide_eq_true_eq, hm, true_and,
            List.all_eq_true, not_forall, not_lt] at hall
          obtain ⟨x, hx, hxm⟩ := hall
          exact ⟨x, hx, fun m' hm' _ => by cases hm'; exact hxm, fun _ h => by cases h⟩
        | some M =>
          simp only [keepMax, List.drop_succ_cons, List.drop_zero]
          rw [ite_eq_left_iff]
          simp only [reduceCtorEq, imp_false, not_not, List.all_eq_true, List.mem_filter,
            decide_eq_true_eq, InBand, Option.some.injEq]
          constructor
          · rintro h x hx ⟨h1, h2⟩
            exact absurd (h2 M rfl) (not_le.2 (h x ⟨hx, h1 m rfl hm⟩))
          · rintro h x ⟨hx, hxm⟩
            by_contra hc
            exact h x hx ⟨fun m' hm' _ => hm' ▸ hxm, fun M' hM' => hM' ▸ not_lt.1 hc⟩
    · simp only [keepMin, if_neg hm, Option.bind_some]
      rcases hb with ⟨m', hm', hpos⟩ | hb
      · cases hm'; exact absurd hpos hm
      obtain ⟨M, rfl⟩ := Option.ne_none_iff_exists'.1 hb
      simp [keepMax, InBand, hm]

example : keep (some (15 : ℚ)) (some 30) [(0, 'a'), (10, 'b'), (20, 'c'), (30, 'd'), (40, 'e')] =
    some [(0, 'a'), (20, 'c'), (30, 'd')] := by decide +kernel

end axes

end Verif.Fourier
