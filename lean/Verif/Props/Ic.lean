import Verif.Model.Ic
import Mathlib.Data.List.TakeWhile
import Mathlib.Tactic.Linarith
import Mathlib.Tactic.NormNum
import Mathlib.Tactic.Ring

/-!
Property C39 (initial conditions).
-/

namespace Verif.Ic

/-! ### The vector given by the user -/

/-- A request: the voltage of a node or the current of an element. -/
inductive Req where
  | v (node : Text) (value : ℚ)
  | i (elem : Text) (value : ℚ)

/-- The label documented for a request. -/
def Req.label : Req → Text
  | .v n _ => 'V' :: '(' :: (n ++ [')'])
  | .i n _ => 'I' :: '(' :: (n ++ [')'])

/-- The labels understood: the letter may be small as well, as it is in netlists. -/
def Req.Label : Req → Text → Prop
  | .v n _, l => ∃ c, Char.toLower c = 'v' ∧ l = c :: '(' :: (n ++ [')'])
  | .i n _, l => ∃ c, Char.toLower c = 'i' ∧ l = c :: '(' :: (n ++ [')'])

theorem Req.label_ok (r : Req) : r.Label r.label := by
  cases r
  · exact ⟨'V', by decide, rfl⟩
  · exact ⟨'I', by decide, rfl⟩

def Req.name : Req → Text
  | .v n _ => n
  | .i n _ => n

def Req.value : Req → ℚ
  | .v _ x => x
  | .i _ x => x

/-- The unknown a request is about: its row, ground being row 0. -/
def Req.Row (toInt : Text → Option Nat) (nv : Nat) (vde : List Text) : Req → Nat → Prop
  | .v n _, k => toInt n = some k
  | .i n _, k => ∃ j, k = nv + j ∧ vde[j]? = some (lower n) ∧ ∀ j' < j, vde[j']? ≠ some (lower n)

/-- A name made of letters and digits. -/
def Plain (n : Text) : Prop := n ≠ [] ∧ ∀ c ∈ n, alnum c = true

theorem alnum_not (c : Char) (h : alnum c = true) : blank c = false ∧ c ≠ '(' ∧ c ≠ ')' := by
  unfold alnum Char.isAlphanum Char.isAlpha Char.isUpper Char.isLower Char.isDigit at h
  refine ⟨?_, ?_, ?_⟩
  · unfold blank Char.isWhitespace
    simp only [Bool.or_eq_true, decide_eq_true_eq, Bool.and_eq_true] at h
    simp only [Bool.or_eq_false_iff, decide_eq_false_iff_not]
    refine ⟨⟨⟨?_, ?_⟩, ?_⟩, ?_⟩ <;> (rintro rfl; revert h; decide)
  · rintro rfl; revert h; decide
  · rintro rfl; revert h; decide

theorem dropWhile_blank (n r : Text) (hn : Plain n) : (n ++ r).dropWhile blank = n ++ r := by
  obtain ⟨h1, h2⟩ := hn
  cases n with
  | nil => exact absurd rfl h1
  | cons c n =>
    rw [List.cons_append, List.dropWhile_cons, if_neg]
    simp [(alnum_not c (h2 c (by simp))).1]

theorem matchHere_label (letter c : Char) (hc : c.toLower = letter) (n : Text) (hn : Plain n) :
    matchHere letter (c :: '(' :: (n ++ [')'])) = some n := by
  have ht : (n ++ [')']).takeWhile alnum = n := by
    rw [List.takeWhile_append_of_pos (fun c hcc => hn.2 c hcc)]
    simp [show alnum ')' = false by decide]
  have hd : (n ++ [')']).dropWhile alnum = [')'] := by
    rw [List.dropWhile_append_of_pos (fun c hcc => hn.2 c hcc)]
    simp [show alnum ')' = false by decide]
  simp only [matchHere]
  rw [if_neg (by simpa using hc)]
  have h0 : ('(' :: (n ++ [')'])).dropWhile blank = '(' :: (n ++ [')']) := by
    rw [List.dropWhile_cons, if_neg (by decide)]
  rw [h0]
  simp only [dropWhile_blank n [')'] hn, ht, hd]
  rw [if_neg hn.1]
  rw [List.dropWhile_cons, if_neg (by decide)]
  rfl

theorem search_none_of (letter : Char) (t : Text)
    (h : ∀ s, s <:+ t → matchHere letter s = none) : search letter t = none := by
  induction t with
  | nil => rfl
  | cons c t ih =>
    unfold search
    rw [h _ List.suffix_rfl]
    exact ih fun s hs => h s (hs.trans (List.suffix_cons _ _))

/-- The label of a current is not taken for that of a voltage. -/
theorem search_v_current (c : Char) (hc : c.toLower = 'i') (n : Text) (hn : Plain n) :
    search 'v' (c :: '(' :: (n ++ [')'])) = none := by
  apply search_none_of
  intro s hs
  have key : ∀ s : Text, '(' ∉ s.tail → matchHere 'v' s = none := by
    intro s hs
    cases s with
    | nil => rfl
    | cons c r =>
      simp only [matchHere]
      by_cases hc : c.toLower ≠ 'v'
      · rw [if_pos hc]
      · rw [if_neg hc]
        split
        · rename_i r' hr
          exfalso
          apply hs
          have : '(' ∈ r.dropWhile blank := by rw [hr]; simp
          exact (List.dropWhile_suffix _).subset this
        · rfl
  rcases List.suffix_cons_iff.1 hs with rfl | hs
  · simp only [matchHere]; rw [if_pos (by rw [hc]; decide)]
  · apply key
    intro hm
    rcases List.suffix_cons_iff.1 hs with rfl | hs
    · simp only [List.tail_cons, List.mem_append, List.mem_singleton] at hm
      rcases hm with hm | hm
      · exact (alnum_not _ (hn.2 _ hm)).2.1 rfl
      · cases hm
    · have := hs.subset (List.mem_of_mem_tail hm)
      simp only [List.mem_append, List.mem_singleton] at this
      rcases this with hm | hm
      · exact (alnum_not _ (hn.2 _ hm)).2.1 rfl
      · cases hm

theorem indexOf_spec (x : Text) (l : List Text) (k : Nat) :
    indexOf x l = some k ↔ l[k]? = some x ∧ ∀ j < k, l[j]? ≠ some x := by
  induction l generalizing k with
  | nil => simp [indexOf]
  | cons y l ih =>
    unfold indexOf
    by_cases h : y = x
    · rw [if_pos h]
      constructor
      · rintro ⟨⟩
        simp [h]
      · rintro ⟨h1, h2⟩
        cases k with
        | zero => rfl
        | succ k => exact absurd (by simp [h]) (h2 0 (by omega))
    · rw [if_neg h]
      cases k with
      | zero =>
        constructor
        · intro hh
          cases hi : indexOf x l <;> simp [hi] at hh
        · rintro ⟨h1, _⟩
          simp at h1; exact absurd h1 h
      | succ k =>
        have : (indexOf x l).map (· + 1) = some (k + 1) ↔ indexOf x l = some k := by
          cases indexOf x l <;> simp
        rw [this, ih]
        simp only [List.getElem?_cons_succ]
        constructor
        · rintro ⟨h1, h2⟩
          refine ⟨h1, ?_⟩
          intro j hj
          cases j with
          | zero => simpa using h
          | succ j => simpa using h2 j (by omega)
        · rintro ⟨h1, h2⟩
          exact ⟨h1, fun j hj => by simpa using h2 (j + 1) (by omega)⟩

theorem fill_cons (toInt : Text → Option Nat) (nv : Nat) (vde : List Text) (r : Req) (l : Text) (hl : r.Label l)
    (hr : Plain r.name) (k : Nat) (hk : r.Row toInt nv vde k) (rest : List (Text × ℚ))
    (x : Nat → ℚ) :
    fill toInt nv vde ((l, r.value) :: rest) x =
      fill toInt nv vde rest (Function.update x k r.value) := by
  cases r with
  | v n val =>
    obtain ⟨c, hc, rfl⟩ := hl
    have hs : search 'v' (c :: '(' :: (n ++ [')'])) = some n := by
      simp only [search]
      rw [matchHere_label 'v' c hc n hr]
    rw [fill, hs]
    simp only
    rw [show toInt n = some k from hk]
  | i n val =>
    obtain ⟨c, hc, rfl⟩ := hl
    have hs : search 'v' (c :: '(' :: (n ++ [')'])) = none := search_v_current c hc n hr
    have hs2 : search 'i' (c :: '(' :: (n ++ [')'])) = some n := by
      simp only [search]
      rw [matchHere_label 'i' c hc n hr]
    obtain ⟨j, hj, h1, h2⟩ := hk
    rw [fill, hs]
    simp only
    rw [hs2]
    simp only
    rw [(indexOf_spec _ _ _).2 ⟨h1, h2⟩, hj]

/-- C39: the vector built from requests whose names consist of letters and digits has the requested
values (the last one, if an unknown is requested more than once) and zero everywhere else. -/
theorem C39_build_partial (toInt : Text → Option Nat) (nv : Nat) (vde : List Text)
    (lab : Req → Text) (hlab : ∀ r : Req, r.Label (lab r)) (reqs : List (Req × Nat)) (hp : ∀ p ∈ reqs, Plain p.1.name)
    (hrow : ∀ p ∈ reqs, p.1.Row toInt nv vde p.2) :
    ∃ x, buildX0 toInt nv vde (reqs.map fun p => (lab p.1, p.1.value)) = .ok x ∧
      (∀ k, (∀ p ∈ reqs, p.2 ≠ k + 1) → x k = 0) ∧
      (∀ k a b p, reqs = a ++ p :: b → p.2 = k + 1 → (∀ q ∈ b, q.2 ≠ k + 1) → x k = p.1.value) := by
  have key : ∀ (reqs : List (Req × Nat)), (∀ p ∈ reqs, Plain p.1.name) →
      (∀ p ∈ reqs, p.1.Row toInt nv vde p.2) → ∀ x0 : Nat → ℚ,
      ∃ x, fill toInt nv vde (reqs.map fun p => (lab p.1, p.1.value)) x0 = .ok x ∧
      (∀ k, (∀ p ∈ reqs, p.2 ≠ k) → x k = x0 k) ∧
      (∀ k a b p, reqs = a ++ p :: b → p.2 = k → (∀ q ∈ b, q.2 ≠ k) → x k = p.1.value) := by
    intro reqs
    induction reqs with
    | nil =>
      intro _ _ x0
      exact ⟨x0, rfl, fun k _ => rfl, fun k a b p h => by simp at h⟩
    | cons r reqs ih =>
      intro hp hrow x0
      obtain ⟨x, h1, h2, h3⟩ := ih (fun p hm => hp p (List.mem_cons_of_mem _ hm))
        (fun p hm => hrow p (List.mem_cons_of_mem _ hm)) (Function.update x0 r.2 r.1.value)
      refine ⟨x, ?_, ?_, ?_⟩
      · rw [List.map_cons, fill_cons toInt nv vde r.1 _ (hlab _) (hp r (by simp)) r.2 (hrow r (by simp))]
        exact h1
      · intro k hk
        rw [h2 k fun p hm => hk p (List.mem_cons_of_mem _ hm),
          Function.update_of_ne (hk r (by simp)).symm]
      · intro k a b p he hpk hb
        cases a with
        | nil =>
          simp only [List.nil_append, List.cons.injEq] at he
          obtain ⟨rfl, rfl⟩ := he
          rw [h2 k hb, ← hpk, Function.update_self]
        | cons y a =>
          simp only [List.cons_append, List.cons.injEq] at he
          exact h3 k a b p he.2 hpk hb
  obtain ⟨x, h1, h2, h3⟩ := key reqs hp hrow (fun _ => 0)
  refine ⟨fun k => x (k + 1), ?_, fun k hk => h2 _ hk, fun k a b p he hpk hb => h3 _ a b p he hpk hb⟩
  unfold buildX0
  rw [h1]

/-- C39: a node whose name has an underscore cannot be given a voltage. -/
theorem C39_build_refuted :
    buildX0 (fun n => if n = "out_p".toList then some 1 else none) 2 []
      [("V(out_p)".toList, 3)] matches .error .value := by
  rfl

example : Plain "n1".toList ∧ (Req.v "n1".toList 2).Row
    (fun n => if n = "n1".toList then some 1 else none) 3 ["l1".toList] 1 ∧
    (Req.i "L1".toList 5).Row (fun n => if n = "n1".toList then some 1 else none) 3 ["l1".toList] 3 := by
  refine ⟨⟨by decide, by decide⟩, by simp [Req.Row], ⟨0, rfl, by decide, fun j hj => by omega⟩⟩

/-! ### Initial conditions of elements -/

/-- The capacitors and diodes with an initial condition that is looked at. -/
def charged : List Item → List (Nat × Nat × ℚ)
  | [] => []
  | .cap n1 n2 (some v) :: rest => if v = 0 then charged rest else (n1, n2, v) :: charged rest
  | _ :: rest => charged rest

theorem caps_cons (len : Nat) (e : Item) (rest : List Item) (x : Nat → ℚ) :
    (charged (e :: rest) = charged rest ∧ caps len (e :: rest) x = caps len rest x) ∨
    ∃ n1 n2 v, charged (e :: rest) = (n1, n2, v) :: charged rest ∧
      caps len (e :: rest) x = caps len rest (Function.update x (row len n1) (x (row len n2) + v)) := by
  cases e with
  | cap n1 n2 ic =>
    cases ic with
    | none => left; exact ⟨rfl, rfl⟩
    | some v =>
      by_cases hv : v = 0
      · left; simp [charged, caps, hv]
      · right; exact ⟨n1, n2, v, by simp [charged, hv], by simp [caps, hv]⟩
  | ind ic => left; exact ⟨rfl, rfl⟩
  | vde => left; exact ⟨rfl, rfl⟩
  | other => left; exact ⟨rfl, rfl⟩

theorem caps_other (len : Nat) (items : List Item) (x : Nat → ℚ) (k : Nat)
    (h : ∀ c ∈ charged items, row len c.1 ≠ k) : caps len items x k = x k := by
  induction items generalizing x with
  | nil => rfl
  | cons e rest ih =>
    rcases caps_cons len e rest x with ⟨h1, h2⟩ | ⟨n1, n2, v, h1, h2⟩
    · rw [h2]; exact ih _ (by rw [h1] at h; exact h)
    · rw [h1] at h
      rw [h2, ih _ (fun c hc => h c (List.mem_cons_of_mem _ hc)),
        Function.update_of_ne (h (n1, n2, v) (by simp)).symm]

/-- Conditions on the capacitors under which the loop works: none is connected to ground, and the
first node of each is none of the nodes of those before it. -/
def Apart : List (Nat × Nat × ℚ) → Prop
  | [] => True
  | (n1, n2, _) :: rest => n1 ≠ 0 ∧ n2 ≠ 0 ∧ n1 ≠ n2 ∧
      (∀ c ∈ rest, c.1 ≠ n1 ∧ c.1 ≠ n2) ∧ Apart rest

theorem caps_works (len : Nat) (items : List Item) (x : Nat → ℚ) (h : Apart (charged items)) :
    ∀ c ∈ charged items, caps len items x (c.1 - 1) - caps len items x (c.2.1 - 1) = c.2.2 := by
  have hn : ∀ l : List (Nat × Nat × ℚ), Apart l → ∀ c ∈ l, c.1 ≠ 0 ∧ c.2.1 ≠ 0 := by
    intro l hl
    induction l with
    | nil => intro c hc; cases hc
    | cons a l ih =>
      obtain ⟨h1, h2, _, _, h5⟩ := hl
      intro c hc
      rcases List.mem_cons.1 hc with rfl | hc
      · exact ⟨h1, h2⟩
      · exact ih h5 c hc
  induction items generalizing x with
  | nil => intro c hc; cases hc
  | cons e rest ih =>
    rcases caps_cons len e rest x with ⟨h1, h2⟩ | ⟨n1, n2, v, h1, h2⟩
    · rw [h2, h1]; exact ih _ (by rw [h1] at h; exact h)
    · rw [h1] at h ⊢
      rw [h2]
      obtain ⟨a1, a2, a3, a4, a5⟩ := h
      intro c hc
      rcases List.mem_cons.1 hc with rfl | hc
      · have r1 : ∀ n, n ≠ 0 → row len n = n - 1 := fun n hn => by simp [row, hn]
        have k1 : ∀ c ∈ charged rest, row len c.1 ≠ n1 - 1 := by
          intro c hc
          rw [r1 _ (hn _ a5 c hc).1]
          have := (a4 c hc).1
          have := (hn _ a5 c hc).1
          omega
        have k2 : ∀ c ∈ charged rest, row len c.1 ≠ n2 - 1 := by
          intro c hc
          rw [r1 _ (hn _ a5 c hc).1]
          have := (a4 c hc).2
          have := (hn _ a5 c hc).1
          omega
        simp only
        rw [caps_other len rest _ _ k1, caps_other len rest _ _ k2, r1 _ a1, r1 _ a2,
          Function.update_self, Function.update_of_ne (by omega)]
        ring
      · exact ih _ a5 c hc

/-- The inductors with an initial condition that is looked at, with their places among the
voltage-defined elements. -/
def fluxed : List Item → Nat → List (Nat × ℚ)
  | [], _ => []
  | .ind (some v) :: rest, k => if v = 0 then fluxed rest (k + 1) else (k, v) :: fluxed rest (k + 1)
  | e :: rest, k => fluxed rest (if e.isVde then k + 1 else k)

theorem fluxed_ge (items : List Item) (k : Nat) : ∀ p ∈ fluxed items k, k ≤ p.1 := by
  induction items generalizing k with
  | nil => intro p hp; cases hp
  | cons e rest ih =>
    have other : ∀ j, k ≤ j → ∀ p ∈ fluxed rest j, k ≤ p.1 := fun j hj p hp =>
      hj.trans (ih j p hp)
    intro p hp
    cases e with
    | ind ic =>
      cases ic with
      | none => exact other (k + 1) (by omega) p hp
      | some v =>
        by_cases hv : v = 0
        · simp only [fluxed, hv, if_true] at hp; exact other (k + 1) (by omega) p hp
        · simp only [fluxed, hv, if_false] at hp
          rcases List.mem_cons.1 hp with rfl | hp
          · exact le_refl _
          · exact other (k + 1) (by omega) p hp
    | vde => exact other (k + 1) (by omega) p hp
    | cap _ _ _ => exact other k (le_refl _) p hp
    | other => exact other k (le_refl _) p hp

theorem inds_spec (items : List Item) (k : Nat) (x : Nat → ℚ) :
    (∀ j, (∀ p ∈ fluxed items k, p.1 ≠ j) → inds items k x j = x j) ∧
    ∀ p ∈ fluxed items k, inds items k x p.1 = p.2 := by
  induction items generalizing k x with
  | nil => exact ⟨fun _ _ => rfl, fun p hp => by cases hp⟩
  | cons e rest ih =>
    cases e with
    | ind ic =>
      cases ic with
      | none => exact ih (k + 1) x
      | some v =>
        by_cases hv : v = 0
        · simp only [fluxed, inds, hv, if_true]; exact ih (k + 1) x
        · simp only [fluxed, inds, hv, if_false]
          obtain ⟨h1, h2⟩ := ih (k + 1) (Function.update x k v)
          refine ⟨?_, ?_⟩
          · intro j hj
            rw [h1 j fun p hp => hj p (List.mem_cons_of_mem _ hp),
              Function.update_of_ne (hj (k, v) (by simp)).symm]
          · intro p hp
            rcases List.mem_cons.1 hp with rfl | hp
            · simp only
              rw [h1 k (fun q hq => by have := fluxed_ge rest (k + 1) q hq; omega),
                Function.update_self]
            · exact h2 p hp
    | vde => exact ih (k + 1) x
    | cap _ _ _ => exact ih k x
    | other => exact ih k x

/-- C39: if no capacitor or diode with an initial condition is connected to ground, and their nodes do
not interfere, then in the modified vector each of them sees its voltage, each inductor with an initial
condition carries its current, and nothing but the first nodes of the former and the currents of the
latter has changed. Missing: initial conditions of zero (they are ignored), elements connected to
ground. -/
theorem C39_modify_partial (nv : Nat) (items : List Item) (x : Nat → ℚ)
    (ha : Apart (charged items)) (hnv : ∀ c ∈ charged items, c.1 < nv ∧ c.2.1 < nv) :
    (∀ c ∈ charged items,
      modifyX0 nv items x (c.1 - 1) - modifyX0 nv items x (c.2.1 - 1) = c.2.2) ∧
    (∀ p ∈ fluxed items (nv - 1), modifyX0 nv items x p.1 = p.2) ∧
    (∀ j, (∀ c ∈ charged items, c.1 - 1 ≠ j) → (∀ p ∈ fluxed items (nv - 1), p.1 ≠ j) →
      modifyX0 nv items x j = x j) := by
  unfold modifyX0
  set len := nv - 1 + (items.filter Item.isVde).length
  have hn : ∀ l : List (Nat × Nat × ℚ), Apart l → ∀ c ∈ l, c.1 ≠ 0 ∧ c.2.1 ≠ 0 := by
    intro l hl
    induction l with
    | nil => intro c hc; cases hc
    | cons a l ih =>
      obtain ⟨h1, h2, _, _, h5⟩ := hl
      intro c hc
      rcases List.mem_cons.1 hc with rfl | hc
      · exact ⟨h1, h2⟩
      · exact ih h5 c hc
  obtain ⟨i1, i2⟩ := inds_spec items (nv - 1) (caps len items x)
  have hsmall : ∀ n, n < nv → n ≠ 0 → ∀ p ∈ fluxed items (nv - 1), p.1 ≠ n - 1 := by
    intro n h1 h2 p hp
    have := fluxed_ge items (nv - 1) p hp
    omega
  refine ⟨?_, i2, ?_⟩
  · intro c hc
    rw [i1 _ (hsmall _ (hnv c hc).1 (hn _ ha c hc).1), i1 _ (hsmall _ (hnv c hc).2 (hn _ ha c hc).2)]
    exact caps_works len items x ha c hc
  · intro j h1 h2
    rw [i1 j h2]
    apply caps_other
    intro c hc
    have := (hn _ ha c hc).1
    simp only [row, if_neg this]
    exact h1 c hc

/-- C39: a capacitor from node 1 to ground, with a voltage source in the circuit, is charged to its
initial condition plus the current of the source. -/
theorem C39_ground_refuted (x : Nat → ℚ) (v : ℚ) (hv : v ≠ 0) :
    modifyX0 2 [.vde, .cap 1 0 (some v)] x 0 = x 1 + v := by
  have h : (List.filter Item.isVde [Item.vde, Item.cap 1 0 (some v)]).length = 1 := rfl
  simp [modifyX0, caps, inds, row, hv, h]

/-- C39: a capacitor from ground to node 1 overwrites the current of the source, and stays as it was. -/
theorem C39_ground_first_refuted (x : Nat → ℚ) (v : ℚ) (hv : v ≠ 0) :
    modifyX0 2 [.vde, .cap 0 1 (some v)] x 1 = x 0 + v ∧
    modifyX0 2 [.vde, .cap 0 1 (some v)] x 0 = x 0 := by
  have h : (List.filter Item.isVde [Item.vde, Item.cap 0 1 (some v)]).length = 1 := rfl
  simp [modifyX0, caps, inds, row, hv, h]

/-- C39: an initial condition of zero changes nothing. -/
theorem C39_zero_refuted (nv n1 n2 : Nat) (x : Nat → ℚ) :
    modifyX0 nv [.cap n1 n2 (some 0), .ind (some 0)] x = x := by
  simp [modifyX0, caps, inds]

example : Apart (charged [.vde, .cap 1 2 (some 5), .ind (some 1), .cap 3 2 (some 2)]) ∧
    (charged [.vde, .cap 1 2 (some 5), .ind (some 1), .cap 3 2 (some 2)]).length = 2 ∧
    fluxed [.vde, .cap 1 2 (some 5), .ind (some 1), .cap 3 2 (some 2)] 3 = [(4, 1)] := by
  refine ⟨?_, ?_, ?_⟩
  · simp only [charged]; norm_num [Apart]
  · simp only [charged]; norm_num
  · simp only [fluxed, Item.isVde]; norm_num

/-- C39: a request about a node or an element that does not exist is refused, with `KeyError` for nodes and `ValueError` for elements. -/
theorem C39_build_unknown (toInt : Text → Option Nat) (nv : Nat) (vde : List Text)
    (lab : Req → Text) (hlab : ∀ r : Req, r.Label (lab r)) (reqs : List (Req × Nat)) (hp : ∀ p ∈ reqs, Plain p.1.name)
    (hrow : ∀ p ∈ reqs, p.1.Row toInt nv vde p.2) (n : Text) (hn : Plain n) (val : ℚ) (rest : List (Text × ℚ)) :
    (toInt n = none → buildX0 toInt nv vde (reqs.map (fun p => (lab p.1, p.1.value)) ++ (lab (.v n val), val) :: rest) = .error .key) ∧
    (lower n ∉ vde → buildX0 toInt nv vde (reqs.map (fun p => (lab p.1, p.1.value)) ++ (lab (.i n val), val) :: rest) = .error .value) := by
  have key : ∀ (tail : List (Text × ℚ)) (e : Err), (∀ x, fill toInt nv vde tail x = .error e) →
      ∀ x, fill toInt nv vde (reqs.map (fun p => (lab p.1, p.1.value)) ++ tail) x = .error e := by
    intro tail e ht
    induction reqs with
    | nil => exact ht
    | cons r reqs ih =>
      intro x
      rw [List.map_cons, List.cons_append, fill_cons toInt nv vde r.1 _ (hlab _) (hp r (by simp)) r.2 (hrow r (by simp))]
      exact ih (fun p hm => hp p (List.mem_cons_of_mem _ hm)) (fun p hm => hrow p (List.mem_cons_of_mem _ hm)) _
  constructor
  · intro h
    unfold buildX0
    rw [key _ .key]
    intro x
    obtain ⟨c, hc, hl⟩ := hlab (.v n val)
    have hs : search 'v' (c :: '(' :: (n ++ [')'])) = some n := by
      simp only [search]
      rw [matchHere_label 'v' c hc n hn]
    rw [hl, fill, hs]
    simp only [h]
  · intro h
    unfold buildX0
    rw [key _ .value]
    intro x
    obtain ⟨c, hc, hl⟩ := hlab (.i n val)
    have hs : search 'v' (c :: '(' :: (n ++ [')'])) = none := search_v_current c hc n hn
    have hs2 : search 'i' (c :: '(' :: (n ++ [')'])) = some n := by
      simp only [search]
      rw [matchHere_label 'i' c hc n hn]
    rw [hl, fill, hs]
    simp only [hs2]
    cases hi : indexOf (lower n) vde with
    | none => rfl
    | some k => exact absurd (List.mem_of_getElem? ((indexOf_spec _ _ _).1 hi).1) h

example : Plain "n7".toList ∧ buildX0 (fun n => if n = "n1".toList then some 1 else none) 2 [] [("V(n1)".toList, 3), ("V(n7)".toList, 3)] matches .error .key :=
  ⟨⟨by decide, by decide⟩, by decide +kernel⟩

end Verif.Ic
