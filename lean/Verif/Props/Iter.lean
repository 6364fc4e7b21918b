import Verif.Model.Iter
import Verif.Props.Results

/-!
C126: iterating a result set yields each of its variables once, in order, with its own values.
C127: iterations over the same result set do not disturb each other.
C128: `as_symbol` finds the symbols of a symbolic result.
C129: `values()` of an operating point has one entry for each variable.
-/

namespace Verif.Iter
open Verif.Results Verif.Csv

variable {β V : Type}

/-! ### C126 -/

theorem drain_base (items : List β) (i fuel : Nat) (hi : i ≤ items.length) (hf : items.length - i < fuel) :
    drain (baseCls items) fuel i = (items.drop i, 0, true) := by
  induction fuel generalizing i with
  | zero => omega
  | succ n ih =>
    by_cases h : i = items.length
    · subst h; simp [drain, baseCls]
    · have hlt : i < items.length := by omega
      have e : (baseCls items).next i = (some items[i], i + 1) := by simp [baseCls, h, hlt]
      rw [drain, e, List.drop_eq_getElem_cons hlt]
      simp only [ih (i + 1) (by omega) (by omega)]

/-- C126 for the sets stored in a file and for operating points: whatever was read from the object before,
a loop over it sees exactly the items, in order, and ends. -/
theorem C126_base (items : List β) (fuel s : Nat) (hf : items.length < fuel) :
    loop (baseCls items) fuel s = (items, 0, true) := by
  have := drain_base items 0 fuel (Nat.zero_le _) (by omega)
  simpa [loop, baseCls] using this

theorem drain_base_short (items : List β) (i fuel : Nat) (h : i + fuel ≤ items.length) :
    drain (baseCls items) fuel i = ((items.drop i).take fuel, i + fuel, false) := by
  induction fuel generalizing i with
  | zero => simp [drain]
  | succ n ih =>
    have hlt : i < items.length := by omega
    have e : (baseCls items).next i = (some items[i], i + 1) := by
      simp only [baseCls]
      rw [if_neg (by omega), List.getElem?_eq_getElem hlt]
    rw [drain, e, List.drop_eq_getElem_cons hlt, List.take_succ_cons]
    simp only [ih (i + 1) (by omega)]
    rw [show i + 1 + n = i + (n + 1) by omega]

/-- C126: a loop left after `n` items has seen the first `n`. -/
theorem C126_prefix (items : List β) (n s : Nat) (h : n ≤ items.length) :
    loop (baseCls items) n s = (items.take n, n, false) := by
  have := drain_base_short items 0 n (by omega)
  simpa [loop, baseCls] using this

theorem drain_int (c : Cls Int β) (items : List β)
    (hc : ∀ i : Int, c.next i = if i = (items.length : Int) - 1 then (none, 0) else (items[(i + 1).toNat]?, i + 1))
    (k fuel : Nat) (hi : k ≤ items.length) (hf : items.length - k < fuel) :
    drain c fuel ((k : Int) - 1) = (items.drop k, 0, true) := by
  induction fuel generalizing k with
  | zero => omega
  | succ n ih =>
    by_cases h : k = items.length
    · subst h; rw [drain, hc, if_pos rfl]; simp
    · have hlt : k < items.length := by omega
      have e : c.next ((k : Int) - 1) = (some items[k], ((k + 1 : Nat) : Int) - 1) := by
        rw [hc, if_neg (by omega), show ((k : Int) - 1 + 1).toNat = k by omega, List.getElem?_eq_getElem hlt]
        congr 1; omega
      rw [drain, e, List.drop_eq_getElem_cons hlt]
      simp only [ih (k + 1) (by omega) (by omega)]

/-- C126 for pole-zero results (with at least one zero: else there is no data, see C94). -/
theorem C126_pz (items : List β) (fuel : Nat) (s : Int) (hf : items.length < fuel) :
    loop (pzCls items) fuel s = (items, 0, true) := by
  have := drain_int (pzCls items) items (fun _ => rfl) 0 fuel (Nat.zero_le _) (by omega)
  simpa [loop, pzCls] using this

theorem symbols_prefix (atoms : V → List Word) (vs : List V) (acc : List Key) :
    ∃ r, vs.foldl (fun acc v => (atoms v).foldl
      (fun acc n => if Key.sym n ∈ acc then acc else acc ++ [Key.sym n]) acc) acc = acc ++ r := by
  have inner : ∀ (l : List Word) (acc : List Key), ∃ r,
      l.foldl (fun acc n => if Key.sym n ∈ acc then acc else acc ++ [Key.sym n]) acc = acc ++ r := by
    intro l
    induction l with
    | nil => intro acc; exact ⟨[], by simp⟩
    | cons n t ih =>
      intro acc
      rw [List.foldl_cons]
      split
      · exact ih acc
      · obtain ⟨r, hr⟩ := ih (acc ++ [Key.sym n])
        exact ⟨Key.sym n :: r, by rw [hr]; simp⟩
  induction vs generalizing acc with
  | nil => exact ⟨[], by simp⟩
  | cons v t ih =>
    rw [List.foldl_cons]
    obtain ⟨r, hr⟩ := inner (atoms v) acc
    obtain ⟨r', hr'⟩ := ih (acc ++ r)
    exact ⟨r ++ r', by rw [hr, hr']; simp⟩

theorem set_new (d : PyDict V) (k : Word) (v : V) (h : k ∉ d.map (·.1)) : d.set k v = d ++ [(k, v)] := by
  induction d with
  | nil => rfl
  | cons p r ih =>
    obtain ⟨a, w⟩ := p
    simp only [List.map_cons, List.mem_cons, not_or] at h
    rw [PyDict.set, if_neg (fun e => h.1 e.symm), ih h.2]; rfl

theorem results_eq (l : List (Key × V)) (acc : PyDict V)
    (h : (acc.map (·.1) ++ l.map (·.1.text)).Nodup) :
    l.foldl (fun r p => ciUpdate r p.1.text p.2) acc = acc ++ l.map (fun p => (p.1.text, p.2)) := by
  induction l generalizing acc with
  | nil => simp
  | cons p t ih =>
    rw [List.foldl_cons, ciUpdate, set_new _ _ _ ?_, ih]
    · simp
    · simpa [List.append_assoc] using h
    · intro hm
      rw [List.nodup_append] at h
      exact h.2.2 _ hm _ (by simp) rfl

/-- C126 for symbolic results whose keys differ in more than letter case: each key comes with its own
expression. -/
theorem C126_symbolic (atoms : V → List Word) (d : List (Key × V))
    (hd : (d.map (fun p => upperW p.1.text)).Nodup) (fuel : Nat) (s : Int) (hf : d.length < fuel) :
    loop (symCls (mkSym atoms d)) fuel s = (d.map (fun p => (p.1.text, some p.2)), 0, true) := by
  have hn : (d.map (fun p => p.1.text)).Nodup := by
    refine List.Nodup.of_map upperW ?_
    simpa [List.map_map, Function.comp_def] using hd
  have hres : (mkSym atoms d).results = d.map (fun p => (p.1.text, p.2)) := by
    have := results_eq d [] (by simpa using hn)
    simpa [mkSym] using this
  obtain ⟨r, hr⟩ := symbols_prefix atoms (d.map (·.2)) (d.map (·.1))
  have hsym : (mkSym atoms d).symbols = d.map (·.1) ++ r := hr
  have hget : ∀ p ∈ d, ciGet (mkSym atoms d).results p.1.text = some p.2 := by
    rw [hres]
    clear hres hsym hr hf hn
    intro p hp
    induction d with
    | nil => cases hp
    | cons q t ih =>
      rw [List.map_cons, List.nodup_cons] at hd
      rw [List.map_cons, ciGet]
      rcases List.mem_cons.1 hp with rfl | ht
      · rw [if_pos rfl]
      · rw [if_neg, ih hd.2 ht]
        · intro e
          exact hd.1 (e ▸ List.mem_map_of_mem (f := fun p : Key × V => upperW p.1.text) ht)
  have := drain_int (symCls (mkSym atoms d)) (d.map (fun p => (p.1.text, some p.2))) ?_ 0 fuel
    (Nat.zero_le _) (by simpa using hf)
  · simpa [loop, symCls] using this
  · intro i
    simp only [symCls, hres, List.length_map]
    split
    · rfl
    · congr 1
      rw [← hres]
      by_cases hj : (i + 1).toNat < d.length
      · rw [hsym, List.getElem?_append_left (by simpa using hj)]
        simp only [hres, List.getElem?_map, List.getElem?_eq_getElem hj, Option.map_some]
        rw [← hres, hget _ (List.getElem_mem hj)]
      · rw [hres, List.getElem?_map, List.getElem?_map, List.getElem?_eq_none (by omega)]
        rfl

/-! ### C127 -/

/-- C127 refuted: once a loop has ended, the iterator starts again with the first item instead of staying
exhausted. -/
theorem C127_exhausted_refuted (b : β) (t : List β) (fuel s : Nat) (hf : (b :: t).length < fuel) :
    (baseCls (b :: t)).next (loop (baseCls (b :: t)) fuel s).2.1 = (some b, 1) := by
  rw [C126_base _ _ _ hf]; simp [baseCls]

/-- C127 refuted: a loop over a result set inside a loop over the same set makes the outer loop see the
first variable for ever - it never ends, whatever the (non-empty) set. -/
theorem C127_nested_refuted (b : β) (t : List β) (fuel : Nat) (hf : (b :: t).length < fuel) (k : Nat) :
    nested (baseCls (b :: t)) fuel k ((baseCls (b :: t)).iter 0) = (List.replicate k b, false) := by
  have h0 : (baseCls (b :: t)).iter 0 = 0 := rfl
  rw [h0]
  induction k with
  | zero => rfl
  | succ k ih =>
    have e : (baseCls (b :: t)).next 0 = (some b, 1) := by simp [baseCls]
    rw [nested, e]
    simp only [inner, C126_base _ _ _ hf, ih]
    rfl

/-- C127 refuted for pole-zero and symbolic sets of two or more: the outer loop sees the first item, then
the second for ever. -/
theorem C127_nested_pz_refuted (a b : β) (t : List β) (fuel : Nat) (hf : (a :: b :: t).length < fuel) (k : Nat) :
    nested (pzCls (a :: b :: t)) fuel (k + 1) ((pzCls (a :: b :: t)).iter 0) = (a :: List.replicate k b, false) := by
  have h0 : (pzCls (a :: b :: t)).next ((pzCls (a :: b :: t)).iter 0) = (some a, 0) := by
    simp only [pzCls, List.length_cons]
    rw [if_neg (by push_cast; omega)]
    rfl
  have h1 : (pzCls (a :: b :: t)).next 0 = (some b, 1) := by
    simp only [pzCls, List.length_cons]
    rw [if_neg (by push_cast; omega)]
    rfl
  have key : ∀ k, nested (pzCls (a :: b :: t)) fuel k 0 = (List.replicate k b, false) := by
    intro k
    induction k with
    | zero => rfl
    | succ k ih =>
      rw [nested, h1]
      simp only [inner, C126_pz _ _ _ hf, ih]
      rfl
  rw [nested, h0]
  simp only [inner, C126_pz _ _ _ hf, key]

/-- C127: over an empty set a loop in a loop ends at once. -/
theorem C127_nested_empty (fuel k : Nat) :
    nested (baseCls ([] : List β)) fuel (k + 1) 0 = ([], true) ∧
      nested (pzCls ([] : List β)) fuel (k + 1) (-1) = ([], true) := ⟨rfl, rfl⟩

/-- C127 (partial: loops one after the other): a loop sees all items even if an earlier loop over the same
set was left after any number of items. -/
theorem C127_restart_partial (items : List β) (fuel n : Nat) (hf : items.length < fuel) :
    (loop (baseCls items) fuel (loop (baseCls items) n 0).2.1).1 = items ∧
      (loop (pzCls items) fuel (loop (pzCls items) n 0).2.1).1 = items := by
  rw [C126_base _ _ _ hf, C126_pz _ _ _ hf]; exact ⟨rfl, rfl⟩

/-! ### C128 -/

theorem mem_symbols (atoms : V → List Word) (d : List (Key × V)) (k : Key) :
    k ∈ (mkSym atoms d).symbols ↔ k ∈ d.map (·.1) ∨ ∃ p ∈ d, ∃ n ∈ atoms p.2, k = .sym n := by
  have inner : ∀ (l : List Word) (acc : List Key),
      k ∈ l.foldl (fun acc n => if Key.sym n ∈ acc then acc else acc ++ [Key.sym n]) acc ↔
        k ∈ acc ∨ ∃ n ∈ l, k = .sym n := by
    intro l
    induction l with
    | nil => simp
    | cons n t ih =>
      intro acc
      rw [List.foldl_cons, ih]
      by_cases h : Key.sym n ∈ acc
      · rw [if_pos h]
        constructor
        · rintro (h1 | ⟨m, hm, e⟩)
          · exact .inl h1
          · exact .inr ⟨m, List.mem_cons_of_mem _ hm, e⟩
        · rintro (h1 | ⟨m, hm, e⟩)
          · exact .inl h1
          · rcases List.mem_cons.1 hm with rfl | hm
            · exact .inl (e ▸ h)
            · exact .inr ⟨m, hm, e⟩
      · rw [if_neg h]; simp [or_assoc]
  have outer : ∀ (l : List (Key × V)) (acc : List Key),
      k ∈ (l.map (·.2)).foldl (fun acc v => (atoms v).foldl
        (fun acc n => if Key.sym n ∈ acc then acc else acc ++ [Key.sym n]) acc) acc ↔
        k ∈ acc ∨ ∃ p ∈ l, ∃ n ∈ atoms p.2, k = .sym n := by
    intro l
    induction l with
    | nil => simp
    | cons p t ih =>
      intro acc
      rw [List.map_cons, List.foldl_cons, ih, inner]
      simp [or_assoc]
  exact outer d _

theorem matching_ok (v : Word) (l : List Key) (hl : ∀ k ∈ l, ∃ n, k = .sym n) :
    matching v l = .ok (l.filter (fun k => decide (lowerW k.text = lowerW v))) := by
  induction l with
  | nil => rfl
  | cons k t ih =>
    obtain ⟨n, rfl⟩ := hl k (List.mem_cons_self ..)
    rw [matching, ih fun k' h' => hl k' (List.mem_cons_of_mem _ h'), List.filter_cons]
    by_cases h : lowerW n = lowerW v
    · simp [Key.text, h]
    · simp [Key.text, h]

/-- C128 (partial: the keys of the set are symbols, as for the solution of the circuit): the symbol found
has the requested name up to letter case and is an unknown or occurs in one of the expressions; if there
is no such symbol the error is a `ValueError`. -/
theorem C128_found_partial (atoms : V → List Word) (d : List (Key × V)) (hd : ∀ p ∈ d, ∃ n, p.1 = .sym n) (v : Word) :
    (∀ k, asSymbol (mkSym atoms d) v = .ok k →
      lowerW k.text = lowerW v ∧ (k ∈ d.map (·.1) ∨ ∃ p ∈ d, ∃ n ∈ atoms p.2, k = .sym n)) ∧
    (asSymbol (mkSym atoms d) v = .error .value ↔
      ∀ n, lowerW n = lowerW v → Key.sym n ∉ d.map (·.1) ∧ ∀ p ∈ d, n ∉ atoms p.2) ∧
    (∀ e, asSymbol (mkSym atoms d) v = .error e → e = .value) := by
  have hs : ∀ k ∈ (mkSym atoms d).symbols, ∃ n, k = .sym n := by
    intro k hk
    rcases (mem_symbols atoms d k).1 hk with h | ⟨p, -, n, -, rfl⟩
    · obtain ⟨p, hp, rfl⟩ := List.mem_map.1 h
      exact hd p hp
    · exact ⟨n, rfl⟩
  have hm := matching_ok v _ hs
  have hmem : ∀ k, k ∈ (mkSym atoms d).symbols.filter (fun k => decide (lowerW k.text = lowerW v)) ↔
      k ∈ (mkSym atoms d).symbols ∧ lowerW k.text = lowerW v := by simp
  unfold asSymbol
  rw [hm]
  cases hl : (mkSym atoms d).symbols.filter (fun k => decide (lowerW k.text = lowerW v)) with
  | nil =>
    refine ⟨by rintro k ⟨⟩, ⟨fun _ n hn => ?_, fun _ => rfl⟩, by rintro e ⟨⟩; rfl⟩
    have : Key.sym n ∉ (mkSym atoms d).symbols := by
      intro h
      have := (hmem (.sym n)).2 ⟨h, hn⟩
      rw [hl] at this; cases this
    rw [mem_symbols] at this
    push Not at this
    exact ⟨this.1, fun p hp ha => this.2 p hp n ha rfl⟩
  | cons k t =>
    have hk := (hmem k).1 (hl ▸ List.mem_cons_self ..)
    refine ⟨?_, ⟨by rintro ⟨⟩, fun h => ?_⟩, by rintro e ⟨⟩⟩
    · rintro k' ⟨⟩
      exact ⟨hk.2, (mem_symbols atoms d k).1 hk.1⟩
    · obtain ⟨n, rfl⟩ := hs k hk.1
      have := h n hk.2
      rcases (mem_symbols atoms d _).1 hk.1 with h1 | ⟨p, hp, m, hmm, e⟩
      · exact absurd h1 this.1
      · cases e; exact absurd hmm (this.2 p hp)

/-- C128 refuted: the keys of a set of transfer functions are strings, so every lookup of a symbol in it
ends in an `AttributeError`, also of symbols that occur in the gains. -/
theorem C128_transfer_functions_refuted (atoms : V → List Word) (d : List (Key × V)) (hne : d ≠ [])
    (hd : ∀ p ∈ d, ∃ t, p.1 = .str t) (v : Word) : asSymbol (mkSym atoms d) v = .error .attr := by
  obtain ⟨r, hr⟩ := symbols_prefix atoms (d.map (·.2)) (d.map (·.1))
  have hsym : (mkSym atoms d).symbols = d.map (·.1) ++ r := hr
  cases d with
  | nil => exact absurd rfl hne
  | cons p t =>
    obtain ⟨x, hx⟩ := hd p (List.mem_cons_self ..)
    unfold asSymbol
    rw [hsym, List.map_cons, hx]
    rfl

/-- `as_symbols` is `as_symbol` of each word, in order. -/
theorem C128_list (s : Sym V) (ws : List Word) (ks : List Key) :
    asSymbols s ws = .ok ks ↔ ws.map (asSymbol s) = ks.map .ok := by
  induction ws generalizing ks with
  | nil => cases ks <;> simp [asSymbols]
  | cons w t ih =>
    rw [asSymbols]
    cases h : asSymbol s w with
    | error e => cases ks <;> simp [h]
    | ok k =>
      cases h2 : asSymbols s t with
      | error e =>
        cases ks with
        | nil => simp
        | cons a r =>
          have : ¬ t.map (asSymbol s) = r.map .ok := fun e' => by rw [(ih r).2 e'] at h2; cases h2
          simp [h, this]
      | ok l =>
        have hl := (ih l).1 h2
        cases ks with
        | nil => simp
        | cons a r =>
          simp only [Except.ok.injEq, List.cons.injEq, List.map_cons, h]
          refine and_congr_right fun _ => ⟨fun e => e ▸ hl, fun e => ?_⟩
          have := (ih r).2 e
          rw [h2] at this
          exact Except.ok.inj this

/-! ### C129 -/

/-- C129 (partial: not exactly one unknown): `values()` is the list of the values. -/
theorem C129_values_partial {K : Type} (x : List K) (h : x.length ≠ 1) : opValues x = .list x := by
  match x, h with
  | [], _ => rfl
  | [_], h => simp at h
  | _ :: _ :: _, _ => rfl

/-- C129 refuted: with one unknown `values()` is a number. -/
theorem C129_single_refuted {K : Type} (x : K) : opValues [x] = .scalar x ∧ ∀ l, opValues [x] ≠ .list l :=
  ⟨rfl, fun _ h => by cases h⟩

/-! ### Examples -/

/-- a divider: two node voltages, their expressions as lists of symbols -/
def dividerSol : List (Key × List Word) :=
  [(.sym "VIN".toList, ["V1".toList]), (.sym "VOUT".toList, ["V1".toList, "R1".toList, "R2".toList])]

example : (dividerSol.map (fun p => upperW p.1.text)).Nodup ∧ (∀ p ∈ dividerSol, ∃ n, p.1 = .sym n) := by
  refine ⟨by decide, ?_⟩
  simp [dividerSol]

example : asSymbol (mkSym id dividerSol) "r2".toList = .ok (.sym "R2".toList) ∧
    asSymbol (mkSym id dividerSol) "C1".toList = .error .value ∧
    asSymbol (mkSym id [(.str "VOUT/V1".toList, ["R1".toList])]) "R1".toList = .error .attr ∧
    asSymbols (mkSym id dividerSol) ["R1".toList, "v1".toList] = .ok [.sym "R1".toList, .sym "V1".toList] := by
  decide +kernel

example : (loop (symCls (mkSym id dividerSol)) 3 5).1.map (·.1) = ["VIN".toList, "VOUT".toList] ∧
    (nested (baseCls [1, 2, 3]) 4 5 0).1 = [1, 1, 1, 1, 1] ∧
    (nested (pzCls [1, 2, 3]) 4 5 (-1)).1 = [1, 2, 2, 2, 2] := by
  decide +kernel

end Verif.Iter
