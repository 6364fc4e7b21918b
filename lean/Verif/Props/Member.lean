import Verif.Model.Member
import Verif.Props.Results

/-!
# C215: result sets as dictionaries
-/

namespace Verif.Member
open Verif.Csv Verif.Results Verif.Circuit

variable {K : Type}

theorem hasKey_iff (vars : List Word) (name : Word) : hasKey vars name = true ↔ ∃ v ∈ vars, lowerW v = lowerW name := by
  simp only [hasKey, decide_eq_true_eq, List.mem_map]
  constructor
  · rintro ⟨v, hv, h⟩
    exact ⟨v, hv, (case_iff _ _).1 h⟩
  · rintro ⟨v, hv, h⟩
    exact ⟨v, hv, (case_iff _ _).2 h⟩

theorem found (x : Word) : ∀ ys : List Word, x ∈ ys → ∃ i, indexOf? x ys = some i
  | [], h => by simp at h
  | y :: ys, h => by
    rw [indexOf?]
    by_cases e : y = x
    · exact ⟨0, by simp [e]⟩
    · obtain ⟨i, hi⟩ := found x ys (by
        rcases List.mem_cons.1 h with h | h
        · exact absurd h.symm e
        · exact h)
      exact ⟨i + 1, by simp [e, hi]⟩

theorem filterMap_some {A B : Type} (f : A → Option B) : ∀ l : List A, (∀ a ∈ l, ∃ b, f a = some b) →
    (l.filterMap f).length = l.length ∧ ∀ k : Nat, (l.filterMap f)[k]? = l[k]?.bind f
  | [], _ => by simp
  | a :: l, h => by
    obtain ⟨b, hb⟩ := h a (by simp)
    obtain ⟨h1, h2⟩ := filterMap_some f l (fun c hc => h c (by simp [hc]))
    rw [List.filterMap_cons_some hb]
    refine ⟨by simp [h1], fun k => ?_⟩
    cases k with
    | zero => simp [hb]
    | succ k => simpa using h2 k

theorem one (fmt : K → Word) (parse : Word → Option K) (old : List Word) (vars : List Word) (hv : ∀ w ∈ vars, Name w)
    (rows : List (List K)) (hr0 : rows ≠ []) (hr : ∀ r ∈ rows, r.length = vars.length)
    (hx : ∀ r ∈ rows, ∀ x ∈ r, Reads fmt parse x) (name : Word) (i : Nat) (hi : indexOf? (lowerW name) (vars.map lowerW) = some i) :
    getItem parse (addLines fmt vars old false rows) name = .ok (some (rows.filterMap (·[i]?))) := by
  have hlt := indexOf?_lt _ _ _ hi
  have hne : vars ≠ [] := by
    rintro rfl
    simp at hlt
  have hix : headersIndex vars [name] = [i] := by simp [headersIndex, hi]
  rw [addLines_eq fmt vars rows hr0 old, getItem,
    load_write fmt parse old rows vars hne hv hr hx [name] (Or.inr (by rw [hix]; rfl)), hix]
  simp only [Nat.zero_sub, List.drop_zero]
  congr 2
  clear hr0 hr hx hix
  induction rows with
  | nil => rfl
  | cons r t ih =>
    rw [List.map_cons, List.flatten_cons, ih, List.filterMap_cons]
    cases h : r[i]? <;> simp [h]

/-- C215: a name, in any letter case, is in the results of a transient analysis, a DC sweep or a periodic analysis exactly if
it can be looked up; another one raises `KeyError`, and `get` returns the default. -/
theorem C215_file (fmt : K → Word) (parse : Word → Option K) (old : List Word) (vars : List Word) (h0 : vars ≠ [])
    (hv : ∀ w ∈ vars, Name w) (rows : List (List K)) (hr0 : rows ≠ []) (hr : ∀ r ∈ rows, r.length = vars.length)
    (hx : ∀ r ∈ rows, ∀ x ∈ r, Reads fmt parse x) (name : Word) (default : List K) :
    let r := getItem parse (addLines fmt vars old false rows) name
    (hasKey vars name = true → ∃ col, r = .ok (some col) ∧ getOr r default = .ok col ∧ col.length = rows.length) ∧
      (hasKey vars name = false → r = .ok none ∧ getOr r default = .ok default) := by
  intro r
  constructor
  · intro h
    obtain ⟨v, hvm, hl⟩ := (hasKey_iff vars name).1 h
    obtain ⟨i, hi⟩ := found (lowerW name) (vars.map lowerW) (by rw [← hl]; exact List.mem_map_of_mem hvm)
    have e : r = _ := one fmt parse old vars hv rows hr0 hr hx name i hi
    rw [e]
    refine ⟨_, rfl, rfl, (filterMap_some _ rows fun q hq => ?_).1⟩
    have hlt := indexOf?_lt _ _ _ hi
    rw [List.length_map, ← hr q hq] at hlt
    exact ⟨_, List.getElem?_eq_getElem hlt⟩
  · intro h
    have hm : ∀ v ∈ vars, lowerW v ≠ lowerW name := fun v hvm e => by
      rw [(hasKey_iff vars name).2 ⟨v, hvm, e⟩] at h
      cases h
    have e : r = .ok none := by
      show getItem _ _ _ = _
      rw [addLines_eq fmt vars rows hr0 old, getItem, C48_missing fmt parse old rows vars h0 hv [name] none 0 name (by simp) hm]
    rw [e]
    exact ⟨rfl, rfl⟩

/-- C215: `items` lists every variable with what is found under its name; there are as many as `len` says. -/
theorem C215_items (fmt : K → Word) (parse : Word → Option K) (old : List Word) (vars : List Word) (h0 : vars ≠ [])
    (hv : ∀ w ∈ vars, Name w) (rows : List (List K)) (hr0 : rows ≠ []) (hr : ∀ r ∈ rows, r.length = vars.length)
    (hx : ∀ r ∈ rows, ∀ x ∈ r, Reads fmt parse x) :
    ∃ l, items parse (addLines fmt vars old false rows) vars = .ok l ∧ l.map Prod.fst = vars ∧
      ∀ p ∈ l, getItem parse (addLines fmt vars old false rows) p.1 = .ok (some p.2) := by
  let f : Word → Option Nat := fun lh => indexOf? (lowerW lh) (vars.map lowerW)
  have hf : ∀ v ∈ vars, ∃ i, f v = some i := fun v hvm => found _ _ (List.mem_map_of_mem hvm)
  obtain ⟨h1, h2⟩ := filterMap_some f vars hf
  have hix : headersIndex vars vars = vars.filterMap f := by rw [headersIndex, if_neg h0]
  have hlt : ∀ i ∈ vars.filterMap f, i < vars.length := fun i hi => headersIndex_lt vars vars i (by rw [hix]; exact hi)
  have hl := load_write fmt parse old rows vars h0 hv hr hx vars (Or.inr (by rw [hix]; exact h1)) none 0
  rw [hix] at hl
  simp only [Nat.zero_sub, List.drop_zero] at hl
  have hval : values parse (addLines fmt vars old false rows) vars =
      .ok ((List.range vars.length).map fun k => (rows.map fun r => (vars.filterMap f).filterMap (fun i => r[i]?)).filterMap (·[k]?)) := by
    rw [values, addLines_eq fmt vars rows hr0 old, hl]
    simp [h1]
  refine ⟨_, by rw [items, hval], ?_, ?_⟩
  · rw [List.map_fst_zip (by simp)]
  · intro p hp
    obtain ⟨k, hk, rfl⟩ := List.getElem_of_mem hp
    have hk' : k < vars.length := by
      rw [List.length_zip] at hk
      omega
    obtain ⟨i, hi⟩ := hf vars[k] (List.getElem_mem hk')
    rw [List.getElem_zip]
    simp only [List.getElem_map, List.getElem_range]
    rw [one fmt parse old vars hv rows hr0 hr hx vars[k] i hi, List.filterMap_map]
    congr 2
    have hall : ∀ r ∈ rows, r[i]? = ((vars.filterMap f).filterMap (fun i => r[i]?))[k]? := by
      intro r hrm
      rw [(filterMap_some (fun i => r[i]?) (vars.filterMap f) fun j hj =>
        ⟨_, List.getElem?_eq_getElem (by rw [hr r hrm]; exact hlt j hj)⟩).2 k, h2 k, List.getElem?_eq_getElem hk']
      simp [hi]
    exact List.filterMap_congr hall

theorem mapM_some {A B : Type} (f : A → Option B) (a : A) : [a].mapM f = (f a).map fun b => [b] := by
  cases h : f a <;> simp [h]

/-- C215: the same for operating points. -/
theorem C215_op (vars : List Word) (x : List K) (hl : x.length = vars.length) (name : Word) :
    (hasKey vars name = true → ∃ v, opGet vars x name = some [v] ∧ v ∈ x) ∧ (hasKey vars name = false → opGet vars x name = none) := by
  constructor
  · intro h
    obtain ⟨v, hvm, he⟩ := (hasKey_iff vars name).1 h
    obtain ⟨i, hi⟩ := found (lowerW name) (vars.map lowerW) (by rw [← he]; exact List.mem_map_of_mem hvm)
    have hlt := indexOf?_lt _ _ _ hi
    rw [List.length_map, ← hl] at hlt
    refine ⟨x[i], ?_, List.getElem_mem hlt⟩
    have hix : headersIndex vars [name] = [i] := by simp [headersIndex, hi]
    rw [opGet, if_pos h, hix, mapM_some, List.getElem?_eq_getElem hlt]
    rfl
  · intro h
    rw [opGet, if_neg (by simp [h])]

/-- C215: the values listed for an operating point are those found under the names, if these differ in more than case. -/
theorem C215_op_items_partial (vars : List Word) (hd : (vars.map upperW).Nodup) (x : List K) (hl : x.length = vars.length) :
    (opItems vars x).map Prod.fst = vars ∧ ∀ p ∈ opItems vars x, opGet vars x p.1 = some [p.2] := by
  refine ⟨by rw [opItems, List.map_fst_zip (by omega)], ?_⟩
  intro p hp
  rw [opItems] at hp
  obtain ⟨k, hk, rfl⟩ := List.getElem_of_mem hp
  rw [List.length_zip] at hk
  have h1 : k < vars.length := by omega
  have h2 : k < x.length := by omega
  rw [List.getElem_zip]
  have hi : indexOf? (lowerW vars[k]) (vars.map lowerW) = some k :=
    indexOf?_spec _ _ ((lower_nodup vars).2 hd) k (by simpa using h1) (by simp)
  have hh : hasKey vars vars[k] = true := (hasKey_iff _ _).2 ⟨vars[k], List.getElem_mem h1, rfl⟩
  have hix : headersIndex vars [vars[k]] = [k] := by simp [headersIndex, hi]
  rw [opGet, if_pos hh, hix, mapM_some, List.getElem?_eq_getElem h2]
  rfl

/-- C215 refuted: the nodes `a` and `A` of a circuit made with the API are two nodes, but their names in the result are one. The list of
items has both voltages; looking up either name gives that of the first. -/
theorem C215_spelling_refuted : ∃ (nodes : List Word) (x : List Nat), nodes.Nodup ∧
    ∃ p ∈ opItems (opVars nodes ([] : List (Elem ℚ))) x, opGet (opVars nodes ([] : List (Elem ℚ))) x p.1 ≠ some [p.2] :=
  ⟨["a".toList, "A".toList], [1, 2], by decide +kernel, ("VA".toList, 2), by decide +kernel, by decide +kernel⟩

/-- C215: and for AC analyses, whose files have other names in them. -/
theorem C215_ac {α C : Type} (fmt : K → Word) (parse : Word → Option K) (polar : K → K → C) (real : K → C) (absf argf : C → K)
    (old : List Word) (nodes : List Word) (circ : List (Elem α)) (hb : NoBlanks nodes circ) (hn : (nodes.map upperW).Nodup)
    (hu : UniqueVde circ) (samples : List (K × List C)) (h0 : samples ≠ [])
    (hl : ∀ p ∈ samples, p.2.length = nodes.length + (vdes circ).length)
    (hx : ∀ p ∈ samples, Reads fmt parse p.1 ∧ ∀ z ∈ p.2, Reads fmt parse (absf z) ∧ Reads fmt parse (argf z))
    (hp : ∀ p ∈ samples, ∀ z ∈ p.2, polar (absf z) (argf z) = z) (name : Word) (default : List C) :
    let r := acGet polar real parse (addLines fmt (acHeaders nodes circ) old false (samples.map fun p => acRow absf argf p.1 p.2)) name
    (hasKey (acVars nodes circ) name = true → ∃ col, r = .ok (some col) ∧ getOr r default = .ok col) ∧
      (hasKey (acVars nodes circ) name = false → r = .ok none ∧ getOr r default = .ok default) := by
  intro r
  constructor
  · intro h
    have hm : upperW name = ['F'] ∨ ∃ v ∈ baseVars nodes circ, upperW v = upperW name := by
      simp only [hasKey, acVars, List.map_cons, List.mem_cons, decide_eq_true_eq, List.mem_map] at h
      exact h.imp (fun e => e) fun e => e
    suffices hs : ∃ col, r = .ok (some col) by
      obtain ⟨col, e⟩ := hs
      exact ⟨col, e, by rw [e]; rfl⟩
    rcases hm with hf | ⟨v, hvm, he⟩
    · have hlen : (baseVars nodes circ).length = nodes.length + (vdes circ).length := by simp [baseVars, vdes]
      have hhl : (acHeaders nodes circ).length = 1 + 2 * (baseVars nodes circ).length := by
        rw [acHeaders, List.length_cons, flat_len]; ring
      have hrl : ∀ r ∈ samples.map (fun p => acRow absf argf p.1 p.2), r.length = (acHeaders nodes circ).length := by
        intro r hr
        obtain ⟨p, hpm, rfl⟩ := List.mem_map.1 hr
        rw [acRow, List.length_cons, flat_len, hhl, hl p hpm, hlen]; ring
      have hs := C48_select fmt parse old (samples.map (fun p => acRow absf argf p.1 p.2)) (acHeaders nodes circ)
        (by simp [acHeaders]) (ac_names nodes circ hb) ((lower_nodup _).2 (ac_headers nodes circ hn hu)) hrl
        (by
          intro r hr x hxr
          obtain ⟨p, hpm, rfl⟩ := List.mem_map.1 hr
          rcases List.mem_cons.1 hxr with rfl | hxr
          · exact (hx p hpm).1
          · obtain ⟨z, hz, hxz⟩ := List.mem_flatMap.1 hxr
            simp only [List.mem_cons, List.not_mem_nil, or_false] at hxz
            rcases hxz with rfl | rfl
            · exact ((hx p hpm).2 z hz).1
            · exact ((hx p hpm).2 z hz).2)
        [⟨0, by omega⟩] [name]
        (by
          have : lowerW name = lowerW ['f'] := (case_iff _ _).1 (by rw [hf]; decide)
          simp [acHeaders, this]) (by simp)
      rw [← addLines_eq fmt _ _ (by simpa using h0) old] at hs
      simp only [r, acGet, hf, ne_eq, not_true_eq_false, if_false, hs]
      exact ⟨_, rfl⟩
    · obtain ⟨j, hj, rfl⟩ := List.getElem_of_mem hvm
      obtain ⟨col, hc, -⟩ := C93_ac fmt parse polar real absf argf old nodes circ hb hn hu samples h0 hl hx hp j _ name
        (List.getElem?_eq_getElem hj) he.symm
      exact ⟨col, hc⟩
  · intro h
    have hm : upperW name ≠ ['F'] ∧ ∀ v ∈ baseVars nodes circ, upperW v ≠ upperW name := by
      simp only [hasKey, acVars, List.map_cons, List.mem_cons, decide_eq_false_iff_not, List.mem_map, not_or, not_exists, not_and] at h
      exact ⟨fun e => h.1 e, h.2⟩
    have hmiss : ∀ q ∈ acHeaders nodes circ, lowerW q ≠ lowerW (absName name) := by
      intro q hq e
      have e' := (case_iff _ _).2 e
      rcases List.mem_cons.1 hq with rfl | hq
      · simp [absName, upperW] at e'
      · obtain ⟨v, hvm, hq⟩ := List.mem_flatMap.1 hq
        simp only [List.mem_cons, List.not_mem_nil, or_false] at hq
        rcases hq with rfl | rfl
        · exact hm.2 v hvm (by simpa [absName, upperW] using e')
        · simp [absName, argName, upperW] at e'
    have e : r = .ok none := by
      show acGet _ _ _ _ _ = _
      rw [addLines_eq fmt _ _ (by simpa using h0) old, acGet]
      simp only [hm.1, ne_eq, not_false_eq_true, if_true]
      rw [C48_missing fmt parse old _ (acHeaders nodes circ) (by simp [acHeaders]) (ac_names nodes circ hb) _ none 0 (absName name)
        (by simp) hmiss]
    rw [e]
    exact ⟨rfl, rfl⟩

/-- C215: and for poles and zeros, if there are zeros. -/
theorem C215_pz_partial {C : Type} (num : Nat → Word) (poles zeros : List C) (hz : zeros ≠ []) (name : Word) :
    ∃ b, pzHas (pzSolution num poles zeros) name = .ok b ∧
      (b = true → ∃ v, pzGet (pzSolution num poles zeros) name = .ok v) ∧
      (b = false → pzGet (pzSolution num poles zeros) name = .error .key) := by
  have he : zeros.isEmpty = false := by simpa using hz
  refine ⟨_, by simp only [pzHas, pzSolution, he]; rfl, ?_, ?_⟩
  · intro h
    have h' := h
    rw [C49_membership, Option.isSome_iff_exists] at h'
    obtain ⟨v, hv⟩ := h'
    refine ⟨v, ?_⟩
    simp only [pzGet, pzSolution, he, Bool.false_eq_true, if_false]
    rw [if_pos h, hv]
  · intro h
    simp only [pzGet, pzSolution, he, Bool.false_eq_true, if_false]
    rw [if_neg (by rw [h]; simp)]

/-- C215: the names in a set of poles and zeros are its keys, however they are written, if there are zeros. -/
theorem C215_pz_keys_partial {C : Type} (num : Nat → Word) (poles zeros : List C) (hz : zeros ≠ []) :
    ∃ ks, pzKeys (pzSolution num poles zeros) = .ok ks ∧
      ∀ name, pzHas (pzSolution num poles zeros) name = .ok true ↔ ∃ k ∈ ks, upperW k = upperW name := by
  have he : zeros.isEmpty = false := by simpa using hz
  refine ⟨_, by simp only [pzKeys, pzSolution, he]; rfl, fun name => ?_⟩
  simp [pzHas, pzSolution, he, ciHas]

/-- C215 refuted: without zeros asking whether a name is in the set raises `AttributeError`, as do `keys()` and looking it up, although `len`
counts the poles. -/
theorem C215_pz_refuted {C : Type} (num : Nat → Word) (poles : List C) (name : Word) :
    pzHas (pzSolution num poles []) name = .error .attr ∧ pzKeys (pzSolution num poles []) = .error .attr ∧
      pzLen (pzSolution num poles []) = poles.length :=
  ⟨rfl, rfl, by simp [pzLen, pzSolution]⟩

/-- three columns, one name asked for in capitals and one that is not there -/
example : (∀ w ∈ ["T".toList, "Vn1".toList, "I(V1)".toList], Name w) ∧
    hasKey ["T".toList, "Vn1".toList, "I(V1)".toList] "VN1".toList = true ∧
    hasKey ["T".toList, "Vn1".toList, "I(V1)".toList] "Vn2".toList = false ∧
    getItem undigit (addLines digit ["T".toList, "Vn1".toList, "I(V1)".toList] [] false [[0, 4, 2], [1, 8, 4]]) "VN1".toList =
      .ok (some [4, 8]) ∧
    items undigit (addLines digit ["T".toList, "Vn1".toList, "I(V1)".toList] [] false [[0, 4, 2], [1, 8, 4]])
        ["T".toList, "Vn1".toList, "I(V1)".toList] =
      .ok [("T".toList, [0, 1]), ("Vn1".toList, [4, 8]), ("I(V1)".toList, [2, 4])] := by
  refine ⟨by simp [Name], by decide +kernel, by decide +kernel, by decide +kernel, by decide +kernel⟩

end Verif.Member
