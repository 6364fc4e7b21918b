import Verif.Model.Plot
import Mathlib.Tactic.NormNum
import Mathlib.Analysis.Complex.Basic

/-!
C108: labels of plots. C109: the curves they stand for.
-/

namespace Verif.Plot

theorem isWord_upper (c : Char) (h : isWord c = true) : isWord c.toUpper = true := by
  unfold Char.toUpper
  split
  · rename_i hc
    have h1 : (97 : Nat) ≤ c.val.toNat := by
      have := hc.1
      simpa [UInt32.le_iff_toNat_le] using this
    have h2 : c.val.toNat ≤ 122 := by
      have := hc.2
      simpa [UInt32.le_iff_toNat_le] using this
    unfold isWord Char.isAlphanum Char.isAlpha Char.isUpper
    simp only [Bool.or_eq_true, decide_eq_true_eq, Bool.and_eq_true]
    left; left; left
    simp only [UInt32.le_iff_toNat_le, UInt32.lt_iff_toNat_lt, ge_iff_le]
    have e : (c.val + ('A'.val - 'a'.val)).toNat = c.val.toNat - 32 := by
      rw [UInt32.toNat_add]
      have : ('A'.val - 'a'.val).toNat = 4294967264 := by decide
      rw [this]
      omega
    have e1 : ('A'.val).toNat = 65 := by decide
    have e2 : ('Z'.val).toNat = 90 := by decide
    rw [e, e1, e2]
    omega
  · exact h

theorem word_ne (c d : Char) (h : isWord c = true) (hd : isWord d = false) : c ≠ d := by
  rintro rfl
  rw [h] at hd
  cases hd

theorem word_not_ws (c : Char) (h : isWord c = true) : isWs c = false := by
  unfold isWs
  simp only [decide_eq_false_iff_not, not_or]
  exact ⟨word_ne c _ h (by decide), word_ne c _ h (by decide), word_ne c _ h (by decide),
    word_ne c _ h (by decide)⟩

theorem skipWs_word (A r : List Char) (d : Char) (hA : ∀ c ∈ A, isWord c = true)
    (hd : isWs d = false) : skipWs (A ++ d :: r) = A ++ d :: r := by
  unfold skipWs
  cases A with
  | nil => simp [List.dropWhile_cons, hd]
  | cons c A => simp [List.dropWhile_cons, word_not_ws c (hA c (by simp))]

theorem take_word (A r : List Char) (d : Char) (hA : ∀ c ∈ A, isWord c = true)
    (hd : isWord d = false) :
    (A ++ d :: r).takeWhile isWord = A ∧ (A ++ d :: r).dropWhile isWord = d :: r := by
  induction A with
  | nil => simp [hd]
  | cons c A ih =>
    have := ih (fun x hx => hA x (by simp [hx]))
    simp [hA c (by simp), this.1, this.2]

theorem opening_word (x d : Char) (A r : List Char) (hA : ∀ c ∈ A, isWord c = true)
    (hd : isWord d = false) (hw : isWs d = false) :
    opening x (x :: '(' :: (A ++ d :: r)) = some (A, d :: r) := by
  unfold opening
  have h1 : lit x (x :: '(' :: (A ++ d :: r)) = some ('(' :: (A ++ d :: r)) := by simp [lit]
  have h2 : skipWs ('(' :: (A ++ d :: r)) = '(' :: (A ++ d :: r) := by
    simp [skipWs, List.dropWhile_cons, show isWs '(' = false from by decide]
  have h3 : skipWs (d :: r) = d :: r := by simp [skipWs, List.dropWhile_cons, hw]
  simp only [h1, h2, lit, if_true, skipWs_word A r d hA hw, take_word A r d hA hd, h3]

/-- No parenthesis, no match. -/
theorem opening_none (x : Char) (s : List Char) (h : '(' ∉ s) : opening x s = none := by
  unfold opening
  cases hl : lit x s with
  | none => rfl
  | some s1 =>
    have hs1 : '(' ∉ s1 := by
      unfold lit at hl
      split at hl
      · cases hl
      · split at hl
        · simp only [Option.some.injEq] at hl
          subst hl
          exact fun hm => h (List.mem_cons_of_mem _ hm)
        · cases hl
    have h2 : lit '(' (skipWs s1) = none := by
      unfold lit
      split
      · rfl
      · rename_i d s' heq
        rw [if_neg]
        rintro rfl
        apply hs1
        have : '(' ∈ skipWs s1 := by rw [heq]; simp
        exact (List.dropWhile_sublist isWs).mem this
    simp only [h2]

/-- Nothing is found in a text where no suffix matches. -/
theorem findall_none {α : Type} (m : List Char → Option (α × List Char)) (n : Nat) (s : List Char)
    (h : ∀ t, t <:+ s → t ≠ [] → m t = none) : findall m n s = [] := by
  induction n generalizing s with
  | zero => rfl
  | succ n ih =>
    cases s with
    | nil => rfl
    | cons c s =>
      simp only [findall, h (c :: s) (List.suffix_refl _) (by simp)]
      exact ih s (fun t ht hne => h t (ht.trans (List.suffix_cons c s)) hne)

/-- The suffixes of a label: itself, one that begins with the parenthesis, or without it. -/
theorem suffix_cases (x : Char) (r t : List Char) (h : t <:+ x :: '(' :: r) :
    t = x :: '(' :: r ∨ t = '(' :: r ∨ t <:+ r := by
  rcases List.suffix_cons_iff.1 h with h | h
  · exact .inl h
  · rcases List.suffix_cons_iff.1 h with h | h
    · exact .inr (.inl h)
    · exact .inr (.inr h)

theorem opening_other (x y : Char) (s : List Char) (h : x ≠ y) : opening y (x :: s) = none := by
  simp [opening, lit, h]

theorem findall_one {α : Type} (m : List Char → Option (α × List Char)) (n : Nat) (c : Char)
    (s r : List Char) (a : α) (h : m (c :: s) = some (a, r))
    (hr : ∀ t, t <:+ r → t ≠ [] → m t = none) :
    findall m (n + 1) (c :: s) = [a] := by
  simp only [findall, h, findall_none m n r hr]

/-- A scanner that needs the letter `y` and a parenthesis. -/
theorem no_match_rest {α : Type} (y : Char) (m : List Char → Option (α × List Char))
    (hm : ∀ s, opening y s = none → m s = none) (r : List Char) (hr : '(' ∉ r) :
    ∀ t, t <:+ r → t ≠ [] → m t = none := by
  intro t ht _
  exact hm t (opening_none y t (fun hp => hr (ht.subset hp)))

theorem pair_opening (s : List Char) (h : opening 'V' s = none) : matchPair s = none := by
  simp [matchPair, h]

theorem one_opening (y : Char) (s : List Char) (h : opening y s = none) : matchOne y s = none := by
  simp [matchOne, h]

theorem paren_not_word : isWord '(' = false ∧ isWord ')' = false ∧ isWord ',' = false ∧
    isWs '(' = false ∧ isWs ')' = false ∧ isWs ',' = false := by decide

/-- C108: `V(a,b)` stands for the voltage between the two nodes, whatever the names. -/
theorem C108_pair (v : Char) (hv : v = 'v' ∨ v = 'V') (a b : List Char)
    (ha : ∀ c ∈ a, isWord c = true) (hb : ∀ c ∈ b, isWord c = true) (h0 : b ≠ ['0']) :
    splitLabel (v :: '(' :: (a ++ ',' :: (b ++ [')']))) =
      some [.two ('V' :: a.map Char.toUpper) (some ('V' :: b.map Char.toUpper))] := by
  have hA : ∀ c ∈ a.map Char.toUpper, isWord c = true := by
    intro c hc
    obtain ⟨d, hd, rfl⟩ := List.mem_map.1 hc
    exact isWord_upper d (ha d hd)
  have hB : ∀ c ∈ b.map Char.toUpper, isWord c = true := by
    intro c hc
    obtain ⟨d, hd, rfl⟩ := List.mem_map.1 hc
    exact isWord_upper d (hb d hd)
  have hB0 : b.map Char.toUpper ≠ ['0'] := by
    intro h
    cases b with
    | nil => cases h
    | cons c t =>
      simp only [List.map_cons, List.cons.injEq, List.map_eq_nil_iff] at h
      obtain ⟨h1, rfl⟩ := h
      apply h0
      unfold Char.toUpper at h1
      split at h1
      · rename_i hc
        exfalso
        have h1' := congrArg (fun x : Char => x.val.toNat) h1
        have l1 : (97 : Nat) ≤ c.val.toNat := by simpa [UInt32.le_iff_toNat_le] using hc.1
        have l2 : c.val.toNat ≤ 122 := by simpa [UInt32.le_iff_toNat_le] using hc.2
        have e : (c.val + ('A'.val - 'a'.val)).toNat = c.val.toNat - 32 := by
          rw [UInt32.toNat_add]
          have : ('A'.val - 'a'.val).toNat = 4294967264 := by decide
          rw [this]
          omega
        simp only at h1'
        rw [e] at h1'
        have : ('0' : Char).val.toNat = 48 := by decide
        omega
      · rw [h1]
  generalize hAe : a.map Char.toUpper = A at hA
  generalize hBe : b.map Char.toUpper = B at hB hB0
  have hup : (v :: '(' :: (a ++ ',' :: (b ++ [')']))).map Char.toUpper =
      'V' :: '(' :: (A ++ ',' :: (B ++ [')'])) := by
    rw [← hAe, ← hBe]
    rcases hv with rfl | rfl <;> simp <;> decide
  have hrest : '(' ∉ A ++ ',' :: (B ++ [')']) := by
    intro h
    simp only [List.mem_append, List.mem_cons, List.not_mem_nil, or_false] at h
    rcases h with h | h | h | h
    · have := hA _ h; rw [paren_not_word.1] at this; cases this
    · cases h
    · have := hB _ h; rw [paren_not_word.1] at this; cases this
    · cases h
  have hopen : opening 'V' ('V' :: '(' :: (A ++ ',' :: (B ++ [')']))) =
      some (A, ',' :: (B ++ [')'])) :=
    opening_word 'V' ',' A _ hA (by decide) (by decide)
  have hpair : matchPair ('V' :: '(' :: (A ++ ',' :: (B ++ [')']))) = some ((A, B), []) := by
    unfold matchPair
    simp only [hopen, lit, if_true]
    rw [skipWs_word B [] ')' hB (by decide), (take_word B [] ')' hB (by decide)).1,
      (take_word B [] ')' hB (by decide)).2]
    simp [skipWs, lit, List.dropWhile_cons, show isWs ')' = false from by decide]
  have hone : matchOne 'V' ('V' :: '(' :: (A ++ ',' :: (B ++ [')']))) = none := by
    unfold matchOne
    simp [hopen, lit]
  unfold splitLabel
  simp only [hup]
  rw [List.length_cons, findall_one matchPair _ 'V' _ [] (A, B) hpair (by
    intro t ht hne
    exact absurd (List.suffix_nil.1 ht) hne)]
  rw [findall_none (matchOne 'V') _ _ (by
    intro t ht hne
    rcases suffix_cases _ _ _ ht with rfl | rfl | ht
    · exact hone
    · exact one_opening _ _ (opening_other _ _ _ (by decide))
    · exact no_match_rest 'V' _ (one_opening 'V') _ hrest t ht hne)]
  rw [findall_none (matchOne 'I') _ _ (by
    intro t ht hne
    rcases suffix_cases _ _ _ ht with rfl | rfl | ht
    · exact one_opening _ _ (opening_other _ _ _ (by decide))
    · exact one_opening _ _ (opening_other _ _ _ (by decide))
    · exact no_match_rest 'I' _ (one_opening 'I') _ hrest t ht hne)]
  simp [pairLab, hB0]

/-- C108: `V(a)` is a node voltage, `I(a)` a current. -/
theorem C108_single (x : Char) (y : Char) (hx : (x = 'v' ∨ x = 'V') ∧ y = 'V' ∨ (x = 'i' ∨ x = 'I') ∧ y = 'I')
    (a : List Char) (ha : ∀ c ∈ a, isWord c = true) :
    splitLabel (x :: '(' :: (a ++ [')'])) =
      some [.two (if y = 'V' then 'V' :: a.map Char.toUpper
        else 'I' :: '(' :: a.map Char.toUpper ++ [')']) none] := by
  have hA : ∀ c ∈ a.map Char.toUpper, isWord c = true := by
    intro c hc
    obtain ⟨d, hd, rfl⟩ := List.mem_map.1 hc
    exact isWord_upper d (ha d hd)
  generalize hAe : a.map Char.toUpper = A at hA
  have hup : (x :: '(' :: (a ++ [')'])).map Char.toUpper = y :: '(' :: (A ++ [')']) := by
    rw [← hAe]
    rcases hx with ⟨rfl | rfl, rfl⟩ | ⟨rfl | rfl, rfl⟩ <;> simp <;> decide
  have hrest : '(' ∉ A ++ [')'] := by
    intro h
    simp only [List.mem_append, List.mem_cons, List.not_mem_nil, or_false] at h
    rcases h with h | h
    · have := hA _ h; rw [paren_not_word.1] at this; cases this
    · cases h
  have hopen : opening y (y :: '(' :: (A ++ [')'])) = some (A, [')']) :=
    opening_word y ')' A _ hA (by decide) (by decide)
  have hone : matchOne y (y :: '(' :: (A ++ [')'])) = some (A, []) := by
    unfold matchOne
    simp [hopen, lit]
  have hpair : matchPair (y :: '(' :: (A ++ [')'])) = none := by
    by_cases hy : y = 'V'
    · subst hy
      unfold matchPair
      simp [hopen, lit]
    · exact pair_opening _ (opening_other _ _ _ hy)
  have hnoparen : ∀ z, matchOne z ('(' :: (A ++ [')'])) = none ∨ z = '(' := by
    intro z
    by_cases hz : z = '('
    · exact .inr hz
    · exact .inl (one_opening _ _ (opening_other _ _ _ (fun h => hz h.symm)))
  unfold splitLabel
  simp only [hup]
  rw [findall_none matchPair _ _ (by
    intro t ht hne
    rcases suffix_cases _ _ _ ht with rfl | rfl | ht
    · exact hpair
    · exact pair_opening _ (opening_other _ _ _ (by decide))
    · exact no_match_rest 'V' _ pair_opening _ hrest t ht hne)]
  have hother : ∀ z, z ≠ y → z ≠ '(' →
      findall (matchOne z) (y :: '(' :: (A ++ [')'])).length (y :: '(' :: (A ++ [')'])) = [] := by
    intro z hz hzp
    apply findall_none
    intro t ht hne
    rcases suffix_cases _ _ _ ht with rfl | rfl | ht
    · exact one_opening _ _ (opening_other _ _ _ (fun h => hz h.symm))
    · exact (hnoparen z).resolve_right hzp
    · exact no_match_rest z _ (one_opening z) _ hrest t ht hne
  have hself : findall (matchOne y) (y :: '(' :: (A ++ [')'])).length (y :: '(' :: (A ++ [')'])) = [A] := by
    rw [List.length_cons]
    exact findall_one _ _ _ _ [] _ hone (fun t ht hne => absurd (List.suffix_nil.1 ht) hne)
  rcases hx with ⟨-, rfl⟩ | ⟨-, rfl⟩
  · rw [hself, hother 'I' (by decide) (by decide)]
    simp
  · rw [hother 'V' (by decide) (by decide), hself]
    simp

/-- C108 is false for the reference node as the second: the label has one component, which plots
do not accept. -/
theorem C108_ground_refuted (ac : Bool) (res : List Char → ℂ) :
    splitLabel "V(n1,0)".toList = some [.one "VN1".toList] ∧
    curve ac res (.one "VN1".toList) = none := by
  refine ⟨by decide +kernel, rfl⟩

/-- The order of the labels is not the one of the directive. -/
theorem C108_order_refuted : splitLabel "I(V1) V(n1) V(n2,n1)".toList =
    some [.two "VN2".toList (some "VN1".toList), .two "VN1".toList none,
      .two "I(V1)".toList none] := by decide +kernel

example : splitLabel "v( n1 , n2 )  v(3)".toList =
    some [.two "VN1".toList (some "VN2".toList), .two "V3".toList none] := by decide +kernel

/-- C109: the curve of a difference, for everything but AC. For AC a single variable is drawn as its
magnitude. Missing: differences in AC (`C109_ac_refuted`). -/
theorem C109_curve_partial (res : List Char → ℂ) (a b : List Char) :
    curve false res (.two a (some b)) = some (res a - res b) ∧
    curve false res (.two a none) = some (res a) ∧
    curve true res (.two a none) = some (‖res a‖ : ℂ) := by
  refine ⟨rfl, rfl, rfl⟩

/-- C109 is false: the AC curve of `V(a,b)` is the difference of the magnitudes and not the
magnitude of the difference. Two voltages of opposite phase are drawn as zero. -/
theorem C109_ac_refuted :
    ¬ ∀ (res : List Char → ℂ) (a b : List Char),
      curve true res (.two a (some b)) = some (‖res a - res b‖ : ℂ) := by
  intro h
  have := h (fun s => if s = ['a'] then 1 else -1) ['a'] ['b']
  have h2 := Option.some.inj this
  norm_num [show (['b'] : List Char) ≠ ['a'] from by decide] at h2

end Verif.Plot
