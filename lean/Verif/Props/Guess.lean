import Verif.Model.Guess
import Mathlib.Data.List.Induction
import Mathlib.Data.List.GetD
import Mathlib.Tactic.Ring
import Mathlib.Tactic.NormNum
import Mathlib.Data.Rat.Floor

/-!
C116: the DC guess gives every node the voltage guessed for it.
C117: every port of a device gets its own guess.
-/

namespace Verif.Guess
open Verif.Circuit

variable {K : Type} [Field K] [DecidableEq K]

/-! ### Removal of dependent equations -/

theorem dedup_append (l : List (List K × K)) (r : List K × K) :
    dedup (l ++ [r]) = if l.any (fun s => dependent r.1 s.1) then dedup l else dedup l ++ [r] := by
  unfold dedup
  rw [List.reverse_append, List.reverse_singleton, List.singleton_append, dedupRev, List.any_reverse]
  split_ifs <;> simp

theorem zip_sub (a b : List K) (h : a.length = b.length) :
    (List.zipWith (· - ·) a b).all (· = 0) = true ↔ a = b := by
  induction a generalizing b with
  | nil => cases b <;> simp_all
  | cons x a ih =>
    cases b with
    | nil => simp at h
    | cons y b =>
      have := ih b (by simpa using h)
      simp only [List.zipWith_cons_cons, List.all_cons, Bool.and_eq_true, decide_eq_true_eq, sub_eq_zero,
        List.cons.injEq]
      rw [this]

theorem zip_add (a b : List K) (h : a.length = b.length) :
    (List.zipWith (· + ·) a b).all (· = 0) = true ↔ a = b.map (- ·) := by
  induction a generalizing b with
  | nil => cases b <;> simp_all
  | cons x a ih =>
    cases b with
    | nil => simp at h
    | cons y b =>
      have := ih b (by simpa using h)
      simp only [List.zipWith_cons_cons, List.all_cons, Bool.and_eq_true, decide_eq_true_eq, add_eq_zero_iff_eq_neg,
        List.map_cons, List.cons.injEq]
      rw [this]

/-- rows are dependent iff they are equal or opposite -/
theorem dependent_iff (a b : List K) (h : a.length = b.length) :
    dependent a b = true ↔ a = b ∨ a = b.map (- ·) := by
  unfold dependent
  rw [Bool.or_eq_true, zip_sub a b h, zip_add a b h]

/-- C116: the equations kept are a part of those suggested, none is equal or opposite to another one kept, and
every suggested one is equal or opposite to one that is kept. -/
theorem C116_equations_kept (n : Nat) (l : List (List K × K)) (hl : ∀ r ∈ l, r.1.length = n) :
    (dedup l).Sublist l ∧
    (dedup l).Pairwise (fun a b => b.1 ≠ a.1 ∧ b.1 ≠ a.1.map (- ·)) ∧
    ∀ r ∈ l, ∃ s ∈ dedup l, r.1 = s.1 ∨ r.1 = s.1.map (- ·) := by
  induction l using List.reverseRecOn with
  | nil => simp [dedup, dedupRev]
  | append_singleton l r ih =>
    obtain ⟨h1, h2, h3⟩ := ih (fun s hs => hl s (List.mem_append_left _ hs))
    have hr : r.1.length = n := hl r (by simp)
    have hd : ∀ s ∈ l, (dependent r.1 s.1 = true ↔ r.1 = s.1 ∨ r.1 = s.1.map (- ·)) := fun s hs =>
      dependent_iff _ _ (by rw [hr, hl s (List.mem_append_left _ hs)])
    rw [dedup_append]
    split_ifs with h
    · refine ⟨h1.trans (List.sublist_append_left ..), h2, fun s hs => ?_⟩
      rcases List.mem_append.mp hs with hs | hs
      · exact h3 s hs
      · rw [List.mem_singleton.mp hs]
        obtain ⟨t, ht, h'⟩ := List.any_eq_true.mp h
        obtain ⟨u, hu, h''⟩ := h3 t ht
        refine ⟨u, hu, ?_⟩
        rcases (hd t ht).mp h' with e | e <;> rcases h'' with e' | e'
        · exact .inl (e.trans e')
        · exact .inr (e.trans e')
        · exact .inr (by rw [e, e'])
        · exact .inl (by rw [e, e']; simp)
    · refine ⟨h1.append_right _, ?_, fun s hs => ?_⟩
      · rw [List.pairwise_append]
        refine ⟨h2, List.pairwise_singleton _ _, fun a ha b hb => ?_⟩
        rw [List.mem_singleton.mp hb]
        have ha' := h1.subset ha
        rw [← not_or, ← hd a ha']
        exact fun hc => h (List.any_eq_true.mpr ⟨a, ha', hc⟩)
      · rcases List.mem_append.mp hs with hs | hs
        · obtain ⟨u, hu, h'⟩ := h3 s hs
          exact ⟨u, List.mem_append_left _ hu, h'⟩
        · exact ⟨s, List.mem_append_right _ hs, .inl rfl⟩

/-! ### Shape -/

omit [DecidableEq K] in
theorem insertZeros_length (l : List Nat) (x : List K) : (insertZeros l x).length = x.length + l.length := by
  induction l generalizing x with
  | nil => rfl
  | cons i r ih =>
    rw [insertZeros, ih]
    simp only [List.length_append, List.length_take, List.length_cons, List.length_drop]
    omega

theorem filter_length (p : Nat → Bool) (l : List Nat) :
    (l.filter p).length + (l.filter (fun i => !p i)).length = l.length := by
  induction l with
  | nil => rfl
  | cons a r ih => by_cases h : p a <;> simp [h] <;> omega

theorem removed_length (l : List (List K × K)) (n : Nat) : (kept l n).length + (removed l n).length = n := by
  unfold kept removed
  rw [List.filter_reverse, List.length_reverse, filter_length, List.length_range]

theorem getDcGuess_some {solve : List (List K) → List K → Option (List K)} {circ : List (GElem K)} {nv : Nat}
    {g : List K} (h : getDcGuess solve circ nv = .ok (some g)) :
    ∃ eqs x, allEqns circ = .ok eqs ∧
      solve (reducedM (dedup (system nv eqs)) (nv - 1)) ((dedup (system nv eqs)).map Prod.snd) = some x ∧
      g = insertZeros (removed (dedup (system nv eqs)) (nv - 1)) x ++ List.replicate (circ.countP (·.vde)) 0 := by
  unfold getDcGuess at h
  by_cases h1 : (!(circ.any (·.nonlinear))) = true
  · rw [if_pos h1] at h; simp at h
  · rw [if_neg h1] at h
    rcases he : allEqns circ with e | eqs
    · rw [he] at h; simp at h
    · rw [he] at h
      by_cases h2 : (!(circ.any fun e => e.guess.isSome)) = true
      · simp only [h2, if_true] at h; simp at h
      · simp only [h2] at h
        rcases hx : solve (reducedM (dedup (system nv eqs)) (nv - 1)) ((dedup (system nv eqs)).map Prod.snd) with _ | x
        · simp [hx] at h
        · simp only [hx, Bool.false_eq_true, if_false, Except.ok.injEq, Option.some.injEq] at h
          exact ⟨eqs, x, rfl, hx, h.symm⟩

/-- C116: a guess has one entry for every node but the reference and one for every branch current, and the
latter are zero. -/
theorem C116_shape (solve : List (List K) → List K → Option (List K)) {circ : List (GElem K)} {nv : Nat}
    {g : List K}
    (hs : ∀ l : List (List K × K), ∀ x, solve (reducedM l (nv - 1)) (l.map Prod.snd) = some x →
      x.length = (kept l (nv - 1)).length)
    (h : getDcGuess solve circ nv = .ok (some g)) :
    g.length = nv - 1 + circ.countP (·.vde) ∧ ∀ i, nv - 1 ≤ i → g.getD i 0 = 0 := by
  obtain ⟨eqs, x, _, hx, rfl⟩ := getDcGuess_some h
  have hl := hs _ x hx
  have hr := removed_length (dedup (system nv eqs)) (nv - 1)
  have hi := insertZeros_length (removed (dedup (system nv eqs)) (nv - 1)) x
  refine ⟨by simp only [List.length_append, List.length_replicate]; omega, fun i hi' => ?_⟩
  rw [List.getD_append_right _ _ _ _ (by omega)]
  rw [List.getD_eq_getElem?_getD, List.getElem?_replicate]
  split_ifs <;> rfl

/-! ### Placement -/

omit [DecidableEq K] in
theorem insertZeros_append (a b : List Nat) (x : List K) :
    insertZeros (a ++ b) x = insertZeros b (insertZeros a x) := by
  induction a generalizing x with
  | nil => rfl
  | cons i r ih => rw [List.cons_append, insertZeros, ih, insertZeros]

omit [DecidableEq K] in
theorem insertZeros_high (l : List Nat) (x : List K) (h : ∀ i ∈ l, x.length ≤ i) :
    insertZeros l x = x ++ List.replicate l.length 0 := by
  suffices H : ∀ (l : List Nat) (m : Nat), (∀ i ∈ l, x.length ≤ i) →
      insertZeros l (x ++ List.replicate m 0) = x ++ List.replicate (m + l.length) 0 by
    simpa using H l 0 h
  intro l
  induction l with
  | nil => intro m _; rfl
  | cons i r ih =>
    intro m h
    have hi := h i (List.mem_cons_self ..)
    rw [insertZeros]
    have e : (x ++ List.replicate m (0 : K)).take i ++ 0 :: (x ++ List.replicate m 0).drop i =
        x ++ List.replicate (m + 1) 0 := by
      rw [List.take_append, List.drop_append, List.take_of_length_le hi, List.drop_eq_nil_of_le hi,
        List.nil_append, List.take_replicate, List.drop_replicate, List.append_assoc]
      congr 1
      rw [← List.replicate_succ, List.replicate_append_replicate]
      congr 1
      omega
    rw [e, ih (m + 1) (fun j hj => h j (List.mem_cons_of_mem _ hj))]
    congr 2
    simp only [List.length_cons]
    omega

/-- What the guess should be: the entry of the solution at the place of the column among the kept ones. -/
def Placed (l : List (List K × K)) (ncol : Nat) (x g : List K) : Prop :=
  (∀ i c, (kept l ncol)[i]? = some c → g.getD c 0 = x.getD i 0) ∧
  ∀ c ∈ removed l ncol, g.getD c 0 = 0

theorem range_split {n m r : Nat} (hr : r ≤ m) (hm : m < n) :
    List.range n = List.range r ++ (r :: List.range' (r + 1) (m - r)) ++ List.range' (m + 1) (n - m - 1) := by
  have e1 : List.range r ++ (r :: List.range' (r + 1) (m - r)) = List.range (m + 1) := by
    rw [← List.range'_succ, List.range_eq_range', List.range_eq_range']
    have := List.range'_append (s := 0) (m := r) (n := m - r + 1) (step := 1)
    simp only [Nat.zero_add, Nat.one_mul] at this
    rw [this]
    congr 1; omega
  rw [e1, List.range_eq_range', List.range_eq_range']
  have := List.range'_append (s := 0) (m := m + 1) (n := n - m - 1) (step := 1)
  simp only [Nat.zero_add, Nat.one_mul] at this
  rw [this]
  congr 1; omega

/-- C116: if the columns in use are `0 .. m` without one of them, all guesses are placed right. Missing: all other
patterns (see the refutation), and the case without an empty column, which is `C116_all_used`. -/
theorem C116_placement_partial (l : List (List K × K)) {ncol m r : Nat} (x : List K) (hr : r ≤ m) (hm : m < ncol)
    (hu : ∀ c, c < ncol → (colUsed l c = true ↔ c ≤ m ∧ c ≠ r))
    (hx : x.length = (kept l ncol).length) :
    Placed l ncol x (insertZeros (removed l ncol) x) := by
  have t : ∀ c, c < ncol → c ≤ m → c ≠ r → colUsed l c = true := fun c h h1 h2 => (hu c h).mpr ⟨h1, h2⟩
  have f : ∀ c, c < ncol → (m < c ∨ c = r) → colUsed l c = false := fun c h h1 => by
    by_contra hc
    have := (hu c h).mp (by simpa using hc)
    omega
  have hk : kept l ncol = List.range r ++ List.range' (r + 1) (m - r) := by
    unfold kept
    rw [range_split hr hm, List.filter_append, List.filter_append, List.filter_cons]
    rw [List.filter_eq_self.mpr (fun c hc => t c (by simp at hc; omega) (by simp at hc; omega) (by simp at hc; omega))]
    rw [f r (by omega) (.inr rfl)]
    rw [(List.filter_eq_self (l := List.range' (r + 1) (m - r))).mpr
      (fun c hc => by
        rw [List.mem_range'_1] at hc
        exact t c (by omega) (by omega) (by omega))]
    rw [(List.filter_eq_nil_iff (l := List.range' (m + 1) (ncol - m - 1))).mpr
      (fun c hc => by
        rw [List.mem_range'_1] at hc
        rw [f c (by omega) (.inl (by omega))]; simp)]
    simp
  have hrem : removed l ncol = (List.range' (m + 1) (ncol - m - 1)).reverse ++ [r] := by
    unfold removed
    rw [List.filter_reverse, range_split hr hm, List.filter_append, List.filter_append, List.filter_cons]
    rw [(List.filter_eq_nil_iff (l := List.range r)).mpr
      (fun c hc => by
        rw [List.mem_range] at hc
        rw [t c (by omega) (by omega) (by omega)]; simp)]
    rw [(List.filter_eq_nil_iff (l := List.range' (r + 1) (m - r))).mpr
      (fun c hc => by
        rw [List.mem_range'_1] at hc
        rw [t c (by omega) (by omega) (by omega)]; simp)]
    rw [(List.filter_eq_self (l := List.range' (m + 1) (ncol - m - 1))).mpr
      (fun c hc => by
        rw [List.mem_range'_1] at hc
        rw [f c (by omega) (.inl (by omega))]; simp)]
    rw [f r (by omega) (.inr rfl)]
    simp
  have hlen : x.length = m := by
    rw [hx, hk, List.length_append, List.length_range, List.length_range']; omega
  rw [hrem, insertZeros_append, insertZeros_high _ x (fun i hi => by
    rw [List.mem_reverse, List.mem_range'_1] at hi; omega)]
  set z := x ++ List.replicate ((List.range' (m + 1) (ncol - m - 1)).reverse).length (0 : K) with hz
  have hzl : m ≤ z.length := by rw [hz, List.length_append, hlen]; omega
  have hzx : ∀ i, i < m → z.getD i 0 = x.getD i 0 := fun i hi => List.getD_append _ _ _ _ (by omega)
  have htl : (z.take r).length = r := by rw [List.length_take]; omega
  have g1 : ∀ c, c < r → (z.take r ++ 0 :: z.drop r).getD c 0 = z.getD c 0 := by
    intro c hc
    rw [List.getD_append _ _ _ _ (by omega), List.getD_eq_getElem?_getD, List.getElem?_take_of_lt hc,
      List.getD_eq_getElem?_getD]
  have g2 : (z.take r ++ 0 :: z.drop r).getD r 0 = 0 := by
    rw [List.getD_append_right _ _ _ _ (by omega), htl, Nat.sub_self]; rfl
  have g3 : ∀ c, r < c → (z.take r ++ 0 :: z.drop r).getD c 0 = z.getD (c - 1) 0 := by
    intro c hc
    rw [List.getD_append_right _ _ _ _ (by omega), htl]
    obtain ⟨d, rfl⟩ : ∃ d, c = r + 1 + d := ⟨c - (r + 1), by omega⟩
    rw [show r + 1 + d - r = d + 1 by omega, List.getD_cons_succ, List.getD_eq_getElem?_getD, List.getElem?_drop,
      List.getD_eq_getElem?_getD]
    congr 2
    omega
  refine ⟨fun i c hic => ?_, fun c hc => ?_⟩
  · rw [hk] at hic
    change (z.take r ++ 0 :: z.drop r).getD c 0 = _
    by_cases hi : i < r
    · rw [List.getElem?_append_left (by rw [List.length_range]; exact hi), List.getElem?_range hi] at hic
      obtain rfl : i = c := by simpa using hic
      rw [g1 i hi, hzx i (by omega)]
    · rw [List.getElem?_append_right (by rw [List.length_range]; omega), List.length_range] at hic
      obtain ⟨h', rfl⟩ : i - r < m - r ∧ r + 1 + 1 * (i - r) = c := by
        by_cases h' : i - r < m - r
        · rw [List.getElem?_range' h'] at hic
          exact ⟨h', by simpa using hic⟩
        · rw [List.getElem?_eq_none (by rw [List.length_range']; omega)] at hic
          simp at hic
      rw [g3 _ (by omega), hzx _ (by omega)]
      congr 1
      omega
  · change (z.take r ++ 0 :: z.drop r).getD c 0 = 0
    rw [hrem, List.mem_append, List.mem_reverse, List.mem_range'_1, List.mem_singleton] at hc
    rcases hc with hc | rfl
    · rw [g3 c (by omega), hz, List.getD_append_right _ _ _ _ (by omega), List.getD_eq_getElem?_getD,
        List.getElem?_replicate]
      split_ifs <;> rfl
    · exact g2

/-- C116: with a guess for every node nothing is moved. -/
theorem C116_all_used (l : List (List K × K)) {ncol : Nat} (x : List K)
    (hu : ∀ c, c < ncol → colUsed l c = true) :
    Placed l ncol x (insertZeros (removed l ncol) x) := by
  have hk : kept l ncol = List.range ncol := List.filter_eq_self.mpr (fun c hc => hu c (by simpa using hc))
  have hr : removed l ncol = [] := List.filter_eq_nil_iff.mpr (fun c hc => by
    rw [List.mem_reverse, List.mem_range] at hc
    rw [hu c hc]; simp)
  rw [hr]
  refine ⟨fun i c hic => ?_, fun c hc => by rw [hr] at hc; simp at hc⟩
  rw [hk] at hic
  obtain ⟨h1, h2⟩ := List.getElem?_eq_some_iff.mp hic
  simp only [List.getElem_range] at h2
  subst h2
  rfl

/-- scalar product of a row of coefficients and a vector -/
def dot (a b : List K) : K := (List.zipWith (· * ·) a b).sum

theorem dot_range (a b : List K) (n : Nat) (ha : a.length = n) (hb : n ≤ b.length) :
    dot a b = ((List.range n).map fun i => a.getD i 0 * b.getD i 0).sum := by
  induction a generalizing b n with
  | nil => simp only [List.length_nil] at ha; subst ha; simp [dot]
  | cons x a ih =>
    cases b with
    | nil => simp only [List.length_cons] at ha; simp only [List.length_nil] at hb; omega
    | cons y b =>
      obtain ⟨k, rfl⟩ : ∃ k, n = k + 1 := ⟨n - 1, by simp at ha; omega⟩
      simp only [List.length_cons, Nat.add_right_cancel_iff] at ha
      simp only [List.length_cons, Nat.add_le_add_iff_right] at hb
      have := ih b k ha hb
      unfold dot at this ⊢
      rw [List.zipWith_cons_cons, List.sum_cons, this, List.range_succ_eq_map, List.map_cons, List.sum_cons,
        List.map_map]
      rfl

/-- C116: a guess with all values in place satisfies every equation that the solution of the reduced system
satisfies. -/
theorem C116_satisfied (l : List (List K × K)) {ncol : Nat} {x g : List K} (hp : Placed l ncol x g)
    (hx : x.length = (kept l ncol).length) (hg : ncol ≤ g.length) (r : List K × K) (hr : r.1.length = ncol)
    (hs : dot ((kept l ncol).map fun i => r.1.getD i 0) x = r.2) :
    dot r.1 g = r.2 := by
  rw [dot_range r.1 g ncol hr hg, ← hs]
  rw [dot_range _ x (kept l ncol).length (by simp) (by omega)]
  have e1 : ((List.range ncol).map fun i => r.1.getD i 0 * g.getD i 0).sum =
      ((kept l ncol).map fun i => r.1.getD i 0 * g.getD i 0).sum := by
    have hz : ∀ i ∈ List.range ncol, colUsed l i = false → g.getD i 0 = 0 := by
      intro i hi hc
      apply hp.2
      unfold removed
      rw [List.mem_filter, List.mem_reverse]
      exact ⟨hi, by rw [hc]; rfl⟩
    unfold kept
    generalize List.range ncol = L at hz
    induction L with
    | nil => rfl
    | cons i L ih =>
      have ih' := ih (fun j hj => hz j (List.mem_cons_of_mem _ hj))
      rw [List.map_cons, List.sum_cons, ih', List.filter_cons]
      by_cases hc : colUsed l i = true
      · rw [if_pos hc, List.map_cons, List.sum_cons]
      · rw [if_neg hc, hz i (List.mem_cons_self ..) (by simpa using hc), mul_zero, zero_add]
  rw [e1]
  congr 1
  apply List.ext_getElem
  · simp
  · intro i h1 h2
    simp only [List.length_map] at h1
    have hk : (kept l ncol)[i]? = some (kept l ncol)[i] := List.getElem?_eq_getElem h1
    simp only [List.getElem_map, List.getElem_range]
    rw [hp.1 i _ hk]
    congr 1
    rw [List.getD_eq_getElem?_getD (l := List.map _ _), List.getElem?_map, hk]
    rfl

/-! ### C116: the voltages -/

/-- the voltage of a node in a guess -/
def volt (g : List K) (n : Nat) : K := if n = 0 then 0 else g.getD (n - 1) 0

omit [DecidableEq K] in
theorem row_getD (nv : Nat) (q : Eqn K) (i : Nat) (hi : i < nv - 1) :
    (row nv q).getD i 0 = if i + 1 = q.n2 then -1 else if i + 1 = q.n1 then 1 else 0 := by
  simp [row, List.getD_eq_getElem?_getD, hi]

omit [DecidableEq K] in
theorem sum_pick (n a : Nat) (f : Nat → K) :
    ((List.range n).map fun i => if i + 1 = a then f i else 0).sum = if 0 < a ∧ a ≤ n then f (a - 1) else 0 := by
  induction n with
  | zero => rw [if_neg (by omega)]; rfl
  | succ n ih =>
    rw [List.range_succ, List.map_append, List.sum_append, ih]
    simp only [List.map_cons, List.map_nil, List.sum_cons, List.sum_nil, add_zero]
    by_cases h : n + 1 = a
    · subst h
      rw [if_neg (by omega), if_pos rfl, if_pos (by omega), zero_add]
      rfl
    · rw [if_neg h, add_zero]
      by_cases h2 : 0 < a ∧ a ≤ n
      · rw [if_pos h2, if_pos (by omega)]
      · rw [if_neg h2, if_neg (by omega)]

/-- what a row says about the voltages -/
theorem dot_row {nv : Nat} {q : Eqn K} (h1 : q.n1 < nv) (h2 : q.n2 < nv) (hne : q.n1 ≠ q.n2) (g : List K)
    (hg : nv - 1 ≤ g.length) : dot (row nv q) g = volt g q.n1 - volt g q.n2 := by
  rw [dot_range _ g (nv - 1) (by simp [row]) hg]
  have e : (List.range (nv - 1)).map (fun i => (row nv q).getD i 0 * g.getD i 0) =
      (List.range (nv - 1)).map (fun i => (if i + 1 = q.n1 then g.getD i 0 else 0) +
        (if i + 1 = q.n2 then -g.getD i 0 else 0)) := by
    refine List.map_congr_left fun i hi => ?_
    rw [row_getD nv q i (List.mem_range.mp hi)]
    by_cases a2 : i + 1 = q.n2
    · rw [if_pos a2, if_pos a2, if_neg (fun a1 => hne (a1.symm.trans a2))]; ring
    · rw [if_neg a2, if_neg a2]
      by_cases a1 : i + 1 = q.n1
      · rw [if_pos a1, if_pos a1]; ring
      · rw [if_neg a1, if_neg a1]; ring
  rw [e]
  have hadd : ∀ (l : List Nat) (a b : Nat → K), (l.map fun i => a i + b i).sum = (l.map a).sum + (l.map b).sum := by
    intro l a b
    induction l with
    | nil => simp
    | cons x l ih => simp only [List.map_cons, List.sum_cons, ih]; ring
  rw [hadd, sum_pick, sum_pick]
  unfold volt
  by_cases z1 : q.n1 = 0
  · have z2 : q.n2 ≠ 0 := fun h => hne (z1.trans h.symm)
    rw [if_neg (by omega), if_pos (by omega), if_pos z1, if_neg z2]; ring
  · by_cases z2 : q.n2 = 0
    · rw [if_pos (by omega), if_neg (by omega), if_neg z1, if_pos z2]; ring
    · rw [if_pos (by omega), if_pos (by omega), if_neg z1, if_neg z2]; ring

/-- the same two nodes, in either order -/
def SamePair (q q' : Eqn K) : Prop := (q.n1 = q'.n1 ∧ q.n2 = q'.n2) ∨ (q.n1 = q'.n2 ∧ q.n2 = q'.n1)

theorem row_ne_zero {nv : Nat} (q : Eqn K) {n : Nat} (h0 : 0 < n) (h1 : n < nv) :
    (row nv q).getD (n - 1) 0 ≠ 0 ↔ n = q.n1 ∨ n = q.n2 := by
  rw [row_getD nv q (n - 1) (by omega), Nat.sub_add_cancel h0]
  by_cases a2 : n = q.n2
  · simp [a2]
  · by_cases a1 : n = q.n1
    · rw [if_neg a2, if_pos a1]; simp [a1]
    · simp [a1, a2]

theorem samePair_of_row {nv : Nat} {q q' : Eqn K} (h : q.n1 < nv ∧ q.n2 < nv ∧ q.n1 ≠ q.n2)
    (h' : q'.n1 < nv ∧ q'.n2 < nv ∧ q'.n1 ≠ q'.n2)
    (hr : row nv q = row nv q' ∨ row nv q = (row nv q').map (- ·)) : SamePair q q' := by
  have key : ∀ n, 0 < n → n < nv → ((n = q.n1 ∨ n = q.n2) ↔ (n = q'.n1 ∨ n = q'.n2)) := by
    intro n h0 h1
    rw [← row_ne_zero q h0 h1, ← row_ne_zero q' h0 h1]
    rcases hr with hr | hr
    · rw [hr]
    · rw [hr, List.getD_eq_getElem?_getD, List.getD_eq_getElem?_getD, List.getElem?_map]
      cases (row nv q')[n - 1]? <;> simp
  have k1 := key q.n1
  have k2 := key q.n2
  have k3 := key q'.n1
  have k4 := key q'.n2
  unfold SamePair
  omega

/-- C116: if every node has a guess, every guess an element gives is satisfied - that one, or another one given for
the same two nodes. `solve` is any method that gives solutions when it gives something. -/
theorem C116_guess_partial (solve : List (List K) → List K → Option (List K))
    (hs : ∀ M T x, solve M T = some x → (∀ r ∈ M, r.length = x.length) ∧ ∀ p ∈ List.zip M T, dot p.1 x = p.2)
    {circ : List (GElem K)} {nv : Nat} {g : List K} (h : getDcGuess solve circ nv = .ok (some g))
    {eqs : List (Eqn K)} (he : allEqns circ = .ok eqs) (hne : eqs ≠ [])
    (hq : ∀ q ∈ eqs, q.n1 < nv ∧ q.n2 < nv ∧ q.n1 ≠ q.n2)
    (hall : ∀ n, 0 < n → n < nv → ∃ q ∈ eqs, n = q.n1 ∨ n = q.n2) :
    ∀ q ∈ eqs, ∃ q' ∈ eqs, SamePair q q' ∧ volt g q'.n1 - volt g q'.n2 = q'.t := by
  obtain ⟨eqs', x, he', hx, hg⟩ := getDcGuess_some h
  rw [he] at he'
  cases he'
  have hsys : system nv eqs = eqs.map fun q => (row nv q, q.t) := by unfold system; rw [if_neg hne]
  have hlen : ∀ r ∈ system nv eqs, r.1.length = nv - 1 := by
    rw [hsys]
    intro r hr
    obtain ⟨q, -, rfl⟩ := List.mem_map.mp hr
    simp [row]
  obtain ⟨hsub, -, hcov⟩ := C116_equations_kept (nv - 1) _ hlen
  set l := dedup (system nv eqs) with hl
  -- every kept row is the row of an equation, and every equation has its row kept
  have hkept : ∀ q ∈ eqs, ∃ q' ∈ eqs, (row nv q', q'.t) ∈ l ∧
      (row nv q = row nv q' ∨ row nv q = (row nv q').map (- ·)) := by
    intro q hqm
    obtain ⟨s, hsm, hs'⟩ := hcov (row nv q, q.t) (by rw [hsys]; exact List.mem_map.mpr ⟨q, hqm, rfl⟩)
    have := hsub.subset hsm
    rw [hsys] at this
    obtain ⟨q', hq', rfl⟩ := List.mem_map.mp this
    exact ⟨q', hq', hsm, hs'⟩
  -- no column is empty
  have hused : ∀ c, c < nv - 1 → colUsed l c = true := by
    intro c hc
    obtain ⟨q, hqm, hqn⟩ := hall (c + 1) (by omega) (by omega)
    obtain ⟨q', hq', hm, hr⟩ := hkept q hqm
    have hp := samePair_of_row (hq q hqm) (hq q' hq') hr
    unfold colUsed
    rw [List.any_eq_true]
    refine ⟨_, hm, ?_⟩
    rw [decide_eq_true_iff]
    have := (row_ne_zero q' (n := c + 1) (nv := nv) (by omega) (by omega)).mpr (by
      unfold SamePair at hp; omega)
    simpa using this
  have hk : kept l (nv - 1) = List.range (nv - 1) :=
    List.filter_eq_self.mpr (fun c hc => hused c (List.mem_range.mp hc))
  have hrem : removed l (nv - 1) = [] := List.filter_eq_nil_iff.mpr (fun c hc => by
    rw [List.mem_reverse, List.mem_range] at hc
    rw [hused c hc]; simp)
  obtain ⟨hx1, hx2⟩ := hs _ _ x hx
  intro q hqm
  obtain ⟨q', hq', hm, hr⟩ := hkept q hqm
  refine ⟨q', hq', samePair_of_row (hq q hqm) (hq q' hq') hr, ?_⟩
  have hin : ((kept l (nv - 1)).map fun i => (row nv q').getD i 0) ∈ reducedM l (nv - 1) :=
    List.mem_map.mpr ⟨_, hm, rfl⟩
  have hxl : x.length = (kept l (nv - 1)).length := by rw [← hx1 _ hin, List.length_map]
  have hzip : (((kept l (nv - 1)).map fun i => (row nv q').getD i 0), q'.t) ∈
      List.zip (reducedM l (nv - 1)) (l.map Prod.snd) := by
    unfold reducedM
    rw [List.zip_map', List.mem_map]
    exact ⟨_, hm, rfl⟩
  have hsat := C116_satisfied l (C116_all_used l x hused) hxl
    (by rw [hrem]; simp only [insertZeros]; rw [hxl, hk, List.length_range]) (row nv q', q'.t) (by simp [row]) (hx2 _ hzip)
  rw [hrem] at hsat hg
  simp only [insertZeros] at hsat hg
  have hxn : nv - 1 = x.length := by rw [hxl, hk, List.length_range]
  obtain ⟨a1, a2, a3⟩ := hq q' hq'
  rw [dot_row a1 a2 a3 x (le_of_eq hxn)] at hsat
  have hv : ∀ n, n < nv → volt g n = volt x n := by
    intro n hn
    unfold volt
    by_cases hz : n = 0
    · rw [if_pos hz, if_pos hz]
    · rw [if_neg hz, if_neg hz, hg, List.getD_eq_getElem?_getD, List.getElem?_append_left (by omega),
        List.getD_eq_getElem?_getD]
  rw [hv _ a1, hv _ a2]
  exact hsat

/-! ### C116: the zeros for the nodes without a guess end up at other nodes -/

/-- a diode between `a` and `c` (diode.py:79-88) -/
def dio (a c : Nat) : GElem ℚ := ⟨false, true, [(a, c)], some (.list [17/40])⟩

/-- a method for one system only, and what `C116_guess_partial` asks for with it: a diode from
node 1 to the reference and one from node 2 to node 1 -/
def oneSolve (M : List (List ℚ)) (T : List ℚ) : Option (List ℚ) :=
  if M = [[1, 0], [-1, 1]] ∧ T = [17/40, 17/40] then some [17/40, 17/20] else none

example : getDcGuess oneSolve [dio 1 0, dio 2 1] 3 = .ok (some [17/40, 17/20]) := by decide +kernel

example : (∀ M T x, oneSolve M T = some x → (∀ r ∈ M, r.length = x.length) ∧ ∀ p ∈ List.zip M T, dot p.1 x = p.2) ∧
    (allEqns [dio 1 0, dio 2 1]).map (fun l => l.map fun q => (q.n1, q.n2, q.t)) =
      .ok [(1, 0, 17/40), (2, 1, 17/40)] := by
  refine ⟨?_, by decide +kernel⟩
  intro M T x h
  unfold oneSolve at h
  split at h
  · rename_i hm
    obtain ⟨rfl, rfl⟩ := hm
    cases h
    decide +kernel
  · cases h

/-- C116: with two diodes to ground at nodes 2 and 4, nodes 1 and 3 being other nodes of the circuit, the guess
of 0.425 V meant for node 4 is given to node 3, whatever exact solver is used. -/
theorem C116_placement_refuted (solve : List (List ℚ) → List ℚ → Option (List ℚ))
    (hs : ∀ t : List ℚ, t.length = 2 → solve [[1, 0], [0, 1]] t = some t) :
    getDcGuess solve [dio 2 0, dio 4 0] 5 = .ok (some [0, 17/40, 17/40, 0]) := by
  have e : getDcGuess solve [dio 2 0, dio 4 0] 5 =
      match solve [[1, 0], [0, 1]] [17/40, 17/40] with
      | none => .ok none
      | some x => .ok (some (insertZeros [2, 0] x ++ [])) := by
    have h1 : (!([dio 2 0, dio 4 0].any (·.nonlinear))) = false := by decide
    have h2 : (!([dio 2 0, dio 4 0].any fun e => e.guess.isSome)) = false := by decide
    have h3 : allEqns [dio 2 0, dio 4 0] = .ok [⟨2, 0, 17/40⟩, ⟨4, 0, 17/40⟩] := rfl
    have h4 : dedup (system 5 [(⟨2, 0, 17/40⟩ : Eqn ℚ), ⟨4, 0, 17/40⟩]) =
        [([0, 1, 0, 0], 17/40), ([0, 0, 0, 1], 17/40)] := by decide +kernel
    have h5 : reducedM [(([0, 1, 0, 0] : List ℚ), (17/40 : ℚ)), ([0, 0, 0, 1], 17/40)] 4 = [[1, 0], [0, 1]] := by
      decide +kernel
    have h6 : removed [(([0, 1, 0, 0] : List ℚ), (17/40 : ℚ)), ([0, 0, 0, 1], 17/40)] 4 = [2, 0] := by
      decide +kernel
    unfold getDcGuess
    rw [h1, h2, h3]
    have h7 : List.countP (fun x => x.vde) [dio 2 0, dio 4 0] = 0 := by decide
    simp only [h4, Bool.false_eq_true, if_false, h5, h6, h7, List.map_cons, List.map_nil, List.replicate_zero]
    cases solve [[1, 0], [0, 1]] [17/40, 17/40] <;> rfl
  rw [e, hs _ rfl]
  rfl

/-- the same diodes at nodes 1 and 3 of a circuit with nodes 0..4: one gap, all values in place -/
example (t : List ℚ) (ht : t.length = 2) :
    Placed (dedup (system 5 [(⟨1, 0, 17/40⟩ : Eqn ℚ), ⟨3, 0, 17/40⟩])) 4 t (insertZeros [3, 1] t) := by
  have h := C116_placement_partial (dedup (system 5 [(⟨1, 0, 17/40⟩ : Eqn ℚ), ⟨3, 0, 17/40⟩]))
    (ncol := 4) (m := 2) (r := 1) t (by omega) (by omega) (by decide +kernel)
    (by rw [ht]; decide +kernel)
  have e : removed (dedup (system 5 [(⟨1, 0, 17/40⟩ : Eqn ℚ), ⟨3, 0, 17/40⟩])) 4 = [3, 1] := by decide +kernel
  rwa [e] at h

example : insertZeros [3, 1] ([5, 7] : List ℚ) = [5, 0, 7, 0] := by decide +kernel

/-- two equations for the same branch, one of them turned round: only the first is kept -/
example : dedup [(([1, -1] : List ℚ), (3 : ℚ)), ([-1, 1], 2), ([1, 0], 5)] = [([1, -1], 3), ([1, 0], 5)] := by
  decide +kernel

/-- a solver for the square diagonal case, and a guess obtained with it -/
example : getDcGuess (fun _ t => some t) [dio 1 0, dio 2 0] 3 = .ok (some [17/40, 17/40]) := by decide +kernel

/-! ### C117: every port gets the guess listed for it -/

omit [Field K] [DecidableEq K] in
/-- C117: if no port of the element is shorted, the equations are the ports paired with the guesses. -/
theorem C117_ports_partial (ports : List (Nat × Nat)) (gs : List K) (hn : ∀ p ∈ ports, p.1 ≠ p.2)
    (hl : ports.length ≤ gs.length) :
    portEqns (.list gs) ports 0 = .ok (List.zipWith (fun p t => ⟨p.1, p.2, t⟩) ports gs) := by
  have key : ∀ (ps : List (Nat × Nat)) (i : Nat), (∀ p ∈ ps, p.1 ≠ p.2) → i + ps.length ≤ gs.length →
      portEqns (.list gs) ps i = .ok (List.zipWith (fun p t => ⟨p.1, p.2, t⟩) ps (gs.drop i)) := by
    intro ps
    induction ps with
    | nil => intro i _ _; rfl
    | cons p ps ih =>
      intro i h1 h2
      obtain ⟨a, b⟩ := p
      have hi : i < gs.length := by simp at h2; omega
      have := ih (i + 1) (fun q hq => h1 q (List.mem_cons_of_mem _ hq)) (by simp at h2; omega)
      simp only [portEqns]
      rw [if_neg (h1 (a, b) (List.mem_cons_self ..))]
      simp only [DcGuess.get, List.getElem?_eq_getElem hi]
      rw [this, List.drop_eq_getElem_cons hi, List.zipWith_cons_cons]
  exact key ports 0 hn (by omega)

omit [Field K] [DecidableEq K] in
/-- C117: no equation is made from a shorted port, and there is one for each other port. -/
theorem C117_count (ports : List (Nat × Nat)) (g : DcGuess K) (i : Nat) (l : List (Eqn K))
    (h : portEqns g ports i = .ok l) :
    l.map (fun q => (q.n1, q.n2)) = ports.filter (fun p => p.1 ≠ p.2) := by
  induction ports generalizing i l with
  | nil =>
    simp only [portEqns, Except.ok.injEq] at h
    subst h; rfl
  | cons p ps ih =>
    obtain ⟨a, b⟩ := p
    simp only [portEqns] at h
    by_cases hab : a = b
    · rw [if_pos hab] at h
      rw [ih i l h, List.filter_cons_of_neg (by simpa using hab)]
    · rw [if_neg hab] at h
      rcases hg : g.get i with e | t
      · rw [hg] at h; simp at h
      · rw [hg] at h
        rcases hr : portEqns g ps (i + 1) with e | m
        · rw [hr] at h; simp at h
        · rw [hr] at h
          simp only [Except.ok.injEq] at h
          subst h
          rw [List.map_cons, ih (i + 1) m hr, List.filter_cons_of_pos (by simpa using hab)]

/-- a square-law n-channel transistor with `VTO = 1` (mosq.py:111,131): ports drain, gate and bulk against the
source -/
def mos (d g s b : Nat) : GElem ℚ := ⟨false, true, [(d, s), (g, s), (b, s)], some (.list [2/5, 11/10, 0])⟩

example : elemEqns (mos 3 2 1 0) = .ok [⟨3, 1, 2/5⟩, ⟨2, 1, 11/10⟩, ⟨0, 1, 0⟩] := rfl

/-- C117: with drain and source tied together the gate gets the guess for the drain, and the bulk the one for the
gate. -/
theorem C117_shorted_refuted : elemEqns (mos 1 2 1 0) = .ok [⟨2, 1, 2/5⟩, ⟨0, 1, 11/10⟩] := rfl

/-- C117: a diode with an initial condition (diode.py:93-95) makes the guess raise a `TypeError`, whatever else is
in the circuit before it without a guess. -/
theorem C117_diode_ic_refuted (solve : List (List K) → List K → Option (List K)) (a c nv : Nat) (ic : K)
    (hac : a ≠ c) (pre post : List (GElem K)) (hp : ∀ e ∈ pre, e.guess = none) :
    getDcGuess solve (pre ++ ⟨false, true, [(a, c)], some (.scalar ic)⟩ :: post) nv = .error .type := by
  have h1 : (!((pre ++ (⟨false, true, [(a, c)], some (.scalar ic)⟩ : GElem K) :: post).any (·.nonlinear))) = false := by
    simp
  have h2 : allEqns (pre ++ (⟨false, true, [(a, c)], some (.scalar ic)⟩ : GElem K) :: post) = .error .type := by
    induction pre with
    | nil => simp [allEqns, elemEqns, portEqns, hac, DcGuess.get]
    | cons e pre ih =>
      have he : elemEqns e = .ok [] := by unfold elemEqns; rw [hp e (List.mem_cons_self ..)]
      have := ih (fun q hq => hp q (List.mem_cons_of_mem _ hq)) (by simp)
      simp only [List.cons_append, allEqns, he, this]
  unfold getDcGuess
  rw [h1, h2]
  rfl

/-- C117: no guess is made for a circuit without nonlinear elements, nor without any suggestion. -/
theorem C117_none (solve : List (List K) → List K → Option (List K)) (circ : List (GElem K)) (nv : Nat) :
    ((∀ e ∈ circ, e.nonlinear = false) → getDcGuess solve circ nv = .ok none) ∧
    ((∀ e ∈ circ, e.guess = none) → getDcGuess solve circ nv = .ok none) := by
  refine ⟨fun h => ?_, fun h => ?_⟩
  · have : (!(circ.any (·.nonlinear))) = true := by simpa using h
    unfold getDcGuess; rw [if_pos this]
  · have h1 : (!(circ.any fun e => e.guess.isSome)) = true := by
      simp only [Bool.not_eq_true', List.any_eq_false]
      intro e he; simp [h e he]
    have h2 : allEqns circ = .ok [] := by
      clear h1
      induction circ with
      | nil => rfl
      | cons e r ih =>
        have he : elemEqns e = .ok [] := by unfold elemEqns; rw [h e (List.mem_cons_self ..)]
        simp only [allEqns, he, ih (fun q hq => h q (List.mem_cons_of_mem _ hq)), List.append_nil]
    unfold getDcGuess
    split_ifs
    · rfl
    · rw [h2]

end Verif.Guess
