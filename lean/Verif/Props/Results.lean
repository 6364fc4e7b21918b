import Verif.Model.Results
import Verif.Props.Csv
import Verif.Props.Vde
import Verif.Props.Mna
import Mathlib.Data.List.Nodup
import Mathlib.Algebra.Order.Field.Basic
import Mathlib.Algebra.Order.Ring.Rat

/-! # Result sets: variables (C50), dictionaries (C49), Gmin check (C52), power (C51) -/

namespace Verif.Results
open Verif.Circuit Verif.Csv

theorem low_high (c : Char) (h : 128 ≤ c.toNat) : c.toLower = c ∧ c.toUpper = c := by
  have hz : ¬ (c.val ≤ 'Z'.val) := by
    intro h2
    have : c.val.toNat ≤ 90 := by simpa [UInt32.le_iff_toNat_le] using h2
    have : c.toNat ≤ 90 := this
    omega
  have hz' : ¬ (c.val ≤ 'z'.val) := by
    intro h2
    have : c.val.toNat ≤ 122 := by simpa [UInt32.le_iff_toNat_le] using h2
    have : c.toNat ≤ 122 := this
    omega
  constructor
  · unfold Char.toLower; rw [dif_neg (fun h => hz h.2)]
  · unfold Char.toUpper; rw [dif_neg (fun h => hz' h.2)]

theorem low_small : ∀ n < 128, (Char.ofNat n).toLower.toUpper = (Char.ofNat n).toUpper
    ∧ (Char.ofNat n).toUpper.toLower = (Char.ofNat n).toLower := by decide +kernel

theorem up_low (c : Char) : c.toLower.toUpper = c.toUpper ∧ c.toUpper.toLower = c.toLower := by
  by_cases h : c.toNat < 128
  · have := low_small c.toNat h
    rwa [Char.ofNat_toNat] at this
  · obtain ⟨h1, h2⟩ := low_high c (by omega)
    rw [h1, h2, h1]; exact ⟨rfl, rfl⟩

theorem map_case (a b : List Char) : a.map Char.toUpper = b.map Char.toUpper ↔ a.map Char.toLower = b.map Char.toLower := by
  constructor
  · intro h
    have := congrArg (List.map Char.toLower) h
    simpa [List.map_map, Function.comp_def, (up_low _).2] using this
  · intro h
    have := congrArg (List.map Char.toUpper) h
    simpa [List.map_map, Function.comp_def, (up_low _).1] using this

theorem case_iff (a b : Word) : upperW a = upperW b ↔ lowerW a = lowerW b := map_case a b

theorem upperW_upperW (a : Word) : upperW (upperW a) = upperW a := by
  have h : ∀ c : Char, c.toUpper.toUpper = c.toUpper := by
    intro c
    have h1 := (up_low c.toUpper).1
    rw [(up_low c).2, (up_low c).1] at h1
    exact h1.symm
  simp [upperW, h]

/-! ## Case-insensitive dictionaries (C49) -/

section Dict
variable {V : Type}

/-- The value stored last under a key, letter case ignored: what the dictionary should give. -/
def lastValue (ops : List (Word × V)) (k : Word) : Option V :=
  (ops.reverse.find? (fun p => upperW p.1 = upperW k)).map Prod.snd

def ciRun (ops : List (Word × V)) : PyDict V := ops.foldl (fun d p => ciUpdate d p.1 p.2) []

theorem ciGet_set (d : PyDict V) (k k' : Word) (v : V) (h : ∀ p ∈ d, upperW p.1 = upperW k → p.1 = k) :
    ciGet (d.set k v) k' = if upperW k = upperW k' then some v else ciGet d k' := by
  induction d with
  | nil => simp [PyDict.set, ciGet]
  | cons p r ih =>
    obtain ⟨a, w⟩ := p
    have ih' := ih (fun q hq => h q (by simp [hq]))
    rw [PyDict.set]
    by_cases e : a = k
    · subst e
      simp only [if_true, ciGet]
      split <;> rfl
    · simp only [e, if_false, ciGet, ih']
      have hne : upperW a ≠ upperW k := fun he => e (h (a, w) (by simp) he)
      by_cases h1 : upperW a = upperW k'
      · have : upperW k ≠ upperW k' := fun he => hne (h1.trans he.symm)
        simp [h1, this]
      · simp [h1]

theorem set_keys (d : PyDict V) (k : Word) (v : V) : ∀ p ∈ d.set k v, p.1 = k ∨ ∃ q ∈ d, q.1 = p.1 := by
  induction d with
  | nil => intro p hp; simp [PyDict.set] at hp; exact Or.inl (by rw [hp])
  | cons q r ih =>
    obtain ⟨a, w⟩ := q
    intro p hp
    rw [PyDict.set] at hp
    split at hp
    · rename_i e
      rcases List.mem_cons.1 hp with rfl | hp
      · exact Or.inl e
      · exact Or.inr ⟨p, by simp [hp], rfl⟩
    · rcases List.mem_cons.1 hp with rfl | hp
      · exact Or.inr ⟨(a, w), by simp, rfl⟩
      · rcases ih p hp with h | ⟨q, hq, h⟩
        · exact Or.inl h
        · exact Or.inr ⟨q, by simp [hq], h⟩

theorem ciRun_keys (ops : List (Word × V)) : ∀ p ∈ ciRun ops, ∃ q ∈ ops, q.1 = p.1 := by
  induction ops using List.reverseRecOn with
  | nil => intro p hp; simp [ciRun] at hp
  | append_singleton ops o ih =>
    intro p hp
    rw [ciRun, List.foldl_append, List.foldl_cons, List.foldl_nil] at hp
    rcases set_keys _ _ _ p hp with h | ⟨q, hq, h⟩
    · exact ⟨o, by simp, h.symm⟩
    · obtain ⟨q', hq', h'⟩ := ih q hq
      exact ⟨q', by simp [hq'], h'.trans h⟩

/-- C49: after any sequence of updates in which no key is spelt in two ways, looking a key up in any letter case gives the
value stored last. -/
theorem C49_last (ops : List (Word × V)) (h : ∀ p ∈ ops, ∀ q ∈ ops, upperW p.1 = upperW q.1 → p.1 = q.1) (k : Word) :
    ciGet (ciRun ops) k = lastValue ops k := by
  induction ops using List.reverseRecOn with
  | nil => rfl
  | append_singleton ops o ih =>
    have ih' := ih (fun p hp q hq => h p (by simp [hp]) q (by simp [hq]))
    have e : ciRun (ops ++ [o]) = (ciRun ops).set o.1 o.2 := by
      simp [ciRun, ciUpdate]
    rw [e, ciGet_set _ _ _ _ (by
      intro p hp he
      obtain ⟨q, hq, hqp⟩ := ciRun_keys ops p hp
      rw [← hqp] at he ⊢
      exact h q (by simp [hq]) o (by simp) he), ih']
    simp only [lastValue, List.reverse_append, List.reverse_cons, List.reverse_nil, List.nil_append, List.cons_append,
      List.find?_cons]
    by_cases hk : upperW o.1 = upperW k <;> simp [hk]

/-- C49: membership agrees with lookup, for every dictionary and key. -/
theorem C49_membership (d : PyDict V) (k : Word) : ciHas d k = (ciGet d k).isSome := by
  induction d with
  | nil => rfl
  | cons p r ih =>
    obtain ⟨a, w⟩ := p
    simp only [ciHas, List.map_cons, List.mem_cons, ciGet] at ih ⊢
    by_cases h : upperW a = upperW k
    · simp [h]
    · have h' : ¬ upperW k = upperW a := fun e => h e.symm
      simp [h, h', ← ih]

/-- C49: the letter case of the key asked for does not matter. -/
theorem C49_case (d : PyDict V) (k k' : Word) (h : upperW k = upperW k') :
    ciGet d k = ciGet d k' ∧ ciHas d k = ciHas d k' := by
  constructor
  · induction d with
    | nil => rfl
    | cons p r ih => obtain ⟨a, w⟩ := p; simp [ciGet, h, ih]
  · simp [ciHas, h]

/-- The condition on spellings is needed: a second spelling is stored beside the first and never found. -/
theorem C49_spelling_refuted :
    ciGet (ciRun [("Vn1".toList, 1), ("VN1".toList, 2)]) "VN1".toList = some 1
      ∧ (ciRun [("Vn1".toList, 1), ("VN1".toList, 2)]).length = 2 := by decide +kernel

example : (∀ p ∈ [("VN1".toList, 1), ("I(V1)".toList, 2), ("VN1".toList, 3)],
      ∀ q ∈ [("VN1".toList, 1), ("I(V1)".toList, 2), ("VN1".toList, 3)], upperW p.1 = upperW q.1 → p.1 = q.1)
    ∧ ciGet (ciRun [("VN1".toList, 1), ("I(V1)".toList, 2), ("VN1".toList, 3)]) "vn1".toList = some 3 := by
  decide +kernel

end Dict

/-! ## Variables (C50) -/

section Vars
variable {α : Type}

/-- C50: one variable for each unknown: the size of the reduced system. -/
theorem C50_count [Field α] (nodes : List Word) (circ : List (Elem α)) (s : Mna.Sys α)
    (he : ∀ e ∈ circ, Mna.NodesLt (nodes.length + 1) e) (hp : ∀ e ∈ circ, Mna.Proper e)
    (h : Mna.generate circ (nodes.length + 1) = .ok s) :
    (opVars nodes circ).length = s.size - 1 ∧ (tranVars nodes circ).length = s.size
      ∧ (pssVars nodes circ).length = s.size ∧ (acVars nodes circ).length = s.size
      ∧ ∀ sweep, (dcVars sweep nodes circ).length = s.size := by
  have hz := (Mna.generate_row (fun _ => 0) he hp h).1
  have : (baseVars nodes circ).length = nodes.length + (vdes circ).length := by simp [baseVars, vdes]
  refine ⟨?_, ?_, ?_, ?_, fun sweep => ?_⟩ <;>
    simp only [opVars, tranVars, pssVars, acVars, dcVars, List.length_map, List.length_cons, this, hz] <;> omega

theorem upper_currName (e : Elem α) : upperW (currName e) = 'I' :: '(' :: ((upper e.id).map Char.toUpper ++ [')']) := by
  simp [upperW, currName]

theorem upper_voltName (n : Word) : upperW (voltName n) = 'V' :: upperW n := by
  simp [upperW, voltName]

theorem upper_upper (s : String) : (upper s).map Char.toUpper = upper s := upperW_upperW s.toList

/-- C50: the names are different up to letter case when nodes and ids are. -/
theorem C50_distinct (nodes : List Word) (circ : List (Elem α)) (hn : (nodes.map upperW).Nodup) (hu : UniqueVde circ) :
    ((baseVars nodes circ).map upperW).Nodup := by
  rw [baseVars, List.map_append, List.nodup_append]
  refine ⟨?_, ?_, ?_⟩
  · rw [List.map_map]
    have : (upperW ∘ voltName) = (fun w => 'V' :: w) ∘ upperW := by funext n; simp [upper_voltName]
    rw [this, ← List.map_map]
    exact hn.map (fun a b h => by simpa using h)
  · rw [List.map_map]
    have : (upperW ∘ currName (α := α)) = (fun w => 'I' :: '(' :: (w ++ [')'])) ∘ (fun e => upper e.id) := by
      funext e; simp [upper_currName, upper_upper]
    rw [this, ← List.map_map]
    exact List.Nodup.map (fun a b h => by simpa using h) hu
  · intro a ha b hb
    simp only [List.map_map, List.mem_map, Function.comp_apply] at ha hb
    obtain ⟨n, _, rfl⟩ := ha
    obtain ⟨e, _, rfl⟩ := hb
    rw [upper_voltName, upper_currName]
    simp

theorem lower_nodup (vs : List Word) : (vs.map lowerW).Nodup ↔ (vs.map upperW).Nodup := by
  simp only [List.Nodup, List.pairwise_map, ne_eq, case_iff]

theorem headersIndex_one (vars : List Word) (hd : (vars.map upperW).Nodup) (i : Nat) (hi : i < vars.length) (name : Word)
    (hn : upperW name = upperW vars[i]) : headersIndex vars [name] = [i] := by
  have h := indexOf?_spec (lowerW name) (vars.map lowerW) ((lower_nodup vars).2 hd) i (by simpa using hi)
    (by simp [(case_iff _ _).1 hn])
  simp [headersIndex, h]

theorem base_node (nodes : List Word) (circ : List (Elem α)) (i : Nat) (hi : i < nodes.length) :
    (baseVars nodes circ)[i]? = some (voltName nodes[i]) := by
  rw [baseVars, List.getElem?_append_left (by simpa using hi)]
  simp [hi]

theorem base_current (nodes : List Word) (circ : List (Elem α)) (id : String) (k : Nat)
    (h : findVdeIndex circ id = .ok k) :
    ∃ e : Elem α, (baseVars nodes circ)[nodes.length + k]? = some (currName e) ∧ upper e.id = upper id := by
  rw [findVdeIndex, findVdeIndexAux_ok] at h
  obtain ⟨j, hj, ⟨e, he, hid⟩, -⟩ := h
  refine ⟨e, ?_, hid⟩
  rw [baseVars, List.getElem?_append_right (by simp)]
  rw [vdes] at he
  simp [hj, he]

/-- The name under which the current of the element `id` is asked for. -/
def askI (id : String) : Word := 'I' :: '(' :: (id.toList ++ [')'])

theorem askI_upper (id : String) (e : Elem α) (h : upper e.id = upper id) : upperW (askI id) = upperW (currName e) := by
  rw [upper_currName, upper_upper, h]
  simp [askI, upperW, upper]

/-- C50: an operating point gives for a node, in any letter case, the unknown of the node. -/
theorem C50_op_node {K : Type} (nodes : List Word) (circ : List (Elem α)) (hn : (nodes.map upperW).Nodup)
    (hu : UniqueVde circ) (x : List K) (hx : x.length = nodes.length + (vdes circ).length) (i : Nat)
    (hi : i < nodes.length) (name : Word) (hname : upperW name = upperW (voltName nodes[i])) :
    opGet (opVars nodes circ) x name = some [x[i]'(by omega)] := by
  have hlen : (baseVars nodes circ).length = nodes.length + (vdes circ).length := by simp [baseVars, vdes]
  have hd : ((opVars nodes circ).map upperW).Nodup := by
    have := C50_distinct nodes circ hn hu
    simpa [opVars, upperW_upperW, List.map_map, Function.comp_def] using this
  have hi' : i < (opVars nodes circ).length := by simp [opVars, hlen]; omega
  have hb := base_node nodes circ i hi
  have hv : upperW name = upperW (opVars nodes circ)[i] := by
    obtain ⟨h1, h2⟩ := List.getElem?_eq_some_iff.1 hb
    simp [opVars, h2, upperW_upperW, hname]
  have hk : hasKey (opVars nodes circ) name = true := by
    rw [hasKey, decide_eq_true_eq, hv]
    exact List.mem_map.2 ⟨_, List.getElem_mem hi', rfl⟩
  rw [opGet, if_pos hk, headersIndex_one _ hd i hi' name hv]
  have : x[i]? = some (x[i]'(by omega)) := List.getElem?_eq_getElem (by omega)
  simp [this]

/-- C50: and for a current the unknown that the equations use for the element. -/
theorem C50_op_current {K : Type} (nodes : List Word) (circ : List (Elem α)) (hn : (nodes.map upperW).Nodup)
    (hu : UniqueVde circ) (x : List K) (hx : x.length = nodes.length + (vdes circ).length) (id : String) (k : Nat)
    (hk : findVdeIndex circ id = .ok k) (name : Word) (hname : upperW name = upperW (askI id)) :
    ∃ v, x[nodes.length + k]? = some v ∧ opGet (opVars nodes circ) x name = some [v] := by
  have hlen : (baseVars nodes circ).length = nodes.length + (vdes circ).length := by simp [baseVars, vdes]
  have hd : ((opVars nodes circ).map upperW).Nodup := by
    have := C50_distinct nodes circ hn hu
    simpa [opVars, upperW_upperW, List.map_map, Function.comp_def] using this
  obtain ⟨e, hb, hid⟩ := base_current nodes circ id k hk
  obtain ⟨h1, h2⟩ := List.getElem?_eq_some_iff.1 hb
  have hi' : nodes.length + k < (opVars nodes circ).length := by simpa [opVars] using h1
  have hv : upperW name = upperW (opVars nodes circ)[nodes.length + k] := by
    simp [opVars, h2, upperW_upperW, hname, askI_upper id e hid]
  have hkey : hasKey (opVars nodes circ) name = true := by
    rw [hasKey, decide_eq_true_eq, hv]
    exact List.mem_map.2 ⟨_, List.getElem_mem hi', rfl⟩
  have hlt : nodes.length + k < x.length := by omega
  refine ⟨x[nodes.length + k], List.getElem?_eq_getElem hlt, ?_⟩
  rw [opGet, if_pos hkey, headersIndex_one _ hd _ hi' name hv]
  have : x[nodes.length + k]? = some x[nodes.length + k] := List.getElem?_eq_getElem hlt
  simp [this]

/-- C50: a name that is no variable is not found. -/
theorem C50_op_unknown {K : Type} (vars : List Word) (x : List K) (name : Word) (h : ∀ v ∈ vars, upperW v ≠ upperW name) :
    opGet vars x name = none := by
  have : hasKey vars name = false := by
    rw [hasKey, decide_eq_false_iff_not, List.mem_map]
    rintro ⟨v, hv, e⟩
    exact h v hv e
  simp [opGet, this]

theorem addLines_true {K : Type} (fmt : K → Word) (vars : List Word) (rows : List (List K)) (old : List Word) :
    addLines fmt vars old true rows = old ++ rows.map (fun r => join (r.map fmt)) := by
  induction rows generalizing old with
  | nil => simp [addLines]
  | cons r rs ih => rw [addLines, ih]; simp [writeCsv]

theorem addLines_eq {K : Type} (fmt : K → Word) (vars : List Word) (rows : List (List K)) (hr : rows ≠ [])
    (old : List Word) : addLines fmt vars old false rows = writeCsv fmt old rows vars false := by
  cases rows with
  | nil => exact absurd rfl hr
  | cons r rs => rw [addLines, addLines_true]; simp [writeCsv]

/-- Any result file: the column of a variable. -/
theorem column {K : Type} (fmt : K → Word) (parse : Word → Option K) (old : List Word) (vars : List Word)
    (hv : ∀ w ∈ vars, Name w) (hd : (vars.map upperW).Nodup) (rows : List (List K)) (hr0 : rows ≠ [])
    (hr : ∀ r ∈ rows, r.length = vars.length) (hx : ∀ r ∈ rows, ∀ x ∈ r, Reads fmt parse x)
    (i : Nat) (hi : i < vars.length) (name : Word) (hname : upperW name = upperW vars[i]) :
    ∃ col, getItem parse (addLines fmt vars old false rows) name = .ok (some col)
      ∧ col.map some = rows.map (fun r => r[i]?) := by
  have hne : vars ≠ [] := fun e => by simp [e] at hi
  have hs := C48_select fmt parse old rows vars hne hv ((lower_nodup vars).2 hd) hr hx [⟨i, hi⟩] [name]
    (by simp [(case_iff _ _).1 hname]) (by simp)
  rw [addLines_eq fmt vars rows hr0 old, getItem, hs]
  refine ⟨_, rfl, ?_⟩
  clear hs hr0 hx
  induction rows with
  | nil => rfl
  | cons r rs ih =>
    have h1 : i < r.length := by rw [hr r (by simp)]; exact hi
    have ih' := ih (fun s hs => hr s (by simp [hs]))
    simp only [List.map_cons, List.flatten_cons, List.map_append, ih']
    simp [h1]

/-- Node names and part ids without blanks. -/
def NoBlanks (nodes : List Word) (circ : List (Elem α)) : Prop :=
  (∀ n ∈ nodes, ∀ c ∈ n, c.isWhitespace = false) ∧ ∀ e ∈ circ, ∀ c ∈ e.id.toList, c.isWhitespace = false

theorem upper_white_small : ∀ n < 128, (Char.ofNat n).isWhitespace = false →
    (Char.ofNat n).toUpper.isWhitespace = false := by decide +kernel

theorem upper_white (c : Char) (h : c.isWhitespace = false) : c.toUpper.isWhitespace = false := by
  by_cases hc : c.toNat < 128
  · have := upper_white_small c.toNat hc
    rw [Char.ofNat_toNat] at this
    exact this h
  · rw [(low_high c (by omega)).2]; exact h

theorem name_upper {w : Word} (h : Name w) : Name (upperW w) := by
  refine ⟨by simpa [upperW] using h.1, ?_⟩
  intro c hc
  obtain ⟨d, hd, rfl⟩ := List.mem_map.1 hc
  exact upper_white d (h.2 d hd)

theorem base_names (nodes : List Word) (circ : List (Elem α)) (h : NoBlanks nodes circ) :
    ∀ w ∈ baseVars nodes circ, Name w := by
  intro w hw
  rw [baseVars, List.mem_append, List.mem_map, List.mem_map] at hw
  rcases hw with ⟨n, hn, rfl⟩ | ⟨e, he, rfl⟩
  · refine ⟨by simp [voltName], ?_⟩
    intro c hc
    rcases List.mem_cons.1 hc with rfl | hc
    · decide
    · exact h.1 n hn c hc
  · refine ⟨by simp [currName], ?_⟩
    intro c hc
    simp only [currName, List.mem_cons, List.mem_append, List.not_mem_nil, or_false] at hc
    rcases hc with rfl | rfl | hc | rfl
    · decide
    · decide
    · obtain ⟨d, hd, rfl⟩ := List.mem_map.1 hc
      exact upper_white d (h.2 e (List.mem_filter.1 he).1 d hd)
    · decide

/-- The two statements for a file whose variables are one leading name and the unknowns. -/
def FileGives {K : Type} (parse : Word → Option K) (file : List Word) (nodes : List Word) (circ : List (Elem α))
    (samples : List (K × List K)) : Prop :=
  (∀ (i : Nat) (hi : i < nodes.length) (name : Word), upperW name = upperW (voltName nodes[i]) →
    ∃ col, getItem parse file name = .ok (some col) ∧ col.map some = samples.map (fun p => p.2[i]?))
  ∧ ∀ (id : String) (k : Nat) (name : Word), findVdeIndex circ id = .ok k → upperW name = upperW (askI id) →
    ∃ col, getItem parse file name = .ok (some col) ∧ col.map some = samples.map (fun p => p.2[nodes.length + k]?)

theorem file_gives {K : Type} (fmt : K → Word) (parse : Word → Option K) (old : List Word) (nodes : List Word)
    (circ : List (Elem α)) (lead : Word) (vars : List Word)
    (hvars : vars.map upperW = upperW lead :: (baseVars nodes circ).map upperW)
    (hnames : ∀ w ∈ vars, Name w) (hn : (nodes.map upperW).Nodup) (hu : UniqueVde circ)
    (hlead : upperW lead ∉ (baseVars nodes circ).map upperW) (samples : List (K × List K)) (h0 : samples ≠ [])
    (hl : ∀ p ∈ samples, p.2.length = nodes.length + (vdes circ).length)
    (hx : ∀ p ∈ samples, Reads fmt parse p.1 ∧ ∀ x ∈ p.2, Reads fmt parse x) :
    FileGives parse (addLines fmt vars old false (samples.map (fun p => p.1 :: p.2))) nodes circ samples := by
  have hlen : (baseVars nodes circ).length = nodes.length + (vdes circ).length := by simp [baseVars, vdes]
  have hvl : vars.length = (baseVars nodes circ).length + 1 := by simpa using congrArg List.length hvars
  have hd : (vars.map upperW).Nodup := by
    rw [hvars, List.nodup_cons]; exact ⟨hlead, C50_distinct nodes circ hn hu⟩
  have key : ∀ (j : Nat) (v name : Word), (baseVars nodes circ)[j]? = some v → upperW name = upperW v →
      ∃ col, getItem parse (addLines fmt vars old false (samples.map (fun p => p.1 :: p.2))) name = .ok (some col)
        ∧ col.map some = samples.map (fun p => p.2[j]?) := by
    intro j v name hj hname
    obtain ⟨h1, h2⟩ := List.getElem?_eq_some_iff.1 hj
    have hi : j + 1 < vars.length := by omega
    have hvj : upperW vars[j + 1] = upperW v := by
      have : (vars.map upperW)[j + 1]? = (upperW lead :: (baseVars nodes circ).map upperW)[j + 1]? := by rw [hvars]
      simpa [hi, h1, h2] using this
    obtain ⟨col, hc1, hc2⟩ := column fmt parse old vars hnames hd (samples.map (fun p => p.1 :: p.2)) (by simpa using h0)
      (by
        intro r hr
        obtain ⟨p, hp, rfl⟩ := List.mem_map.1 hr
        simp [hl p hp, hvl, hlen])
      (by
        intro r hr x hxr
        obtain ⟨p, hp, rfl⟩ := List.mem_map.1 hr
        rcases List.mem_cons.1 hxr with rfl | hxr
        · exact (hx p hp).1
        · exact (hx p hp).2 x hxr)
      (j + 1) hi name (hname.trans hvj.symm)
    refine ⟨col, hc1, ?_⟩
    rw [hc2, List.map_map]
    apply List.map_congr_left
    intro p _
    simp
  constructor
  · intro i hi name hname
    exact key i _ name (base_node nodes circ i hi) hname
  · intro id k name hk hname
    obtain ⟨e, hb, hid⟩ := base_current nodes circ id k hk
    exact key _ _ name hb (hname.trans (askI_upper id e hid))

theorem lead_T (nodes : List Word) (circ : List (Elem α)) : upperW ['T'] ∉ (baseVars nodes circ).map upperW := by
  simp only [baseVars, List.map_append, List.map_map, List.mem_append, List.mem_map, Function.comp_apply, not_or]
  refine ⟨?_, ?_⟩
  · rintro ⟨n, _, h⟩
    rw [upper_voltName] at h
    have : upperW ['T'] = ['T'] := by decide
    rw [this] at h
    simp at h
  · rintro ⟨e, _, h⟩
    rw [upper_currName] at h
    have : upperW ['T'] = ['T'] := by decide
    rw [this] at h
    simp at h

/-- C50: a transient result gives for every node and every current, in any letter case, the samples of its unknown. -/
theorem C50_tran {K : Type} (fmt : K → Word) (parse : Word → Option K) (old : List Word) (nodes : List Word)
    (circ : List (Elem α)) (hb : NoBlanks nodes circ) (hn : (nodes.map upperW).Nodup) (hu : UniqueVde circ)
    (samples : List (K × List K)) (h0 : samples ≠ [])
    (hl : ∀ p ∈ samples, p.2.length = nodes.length + (vdes circ).length)
    (hx : ∀ p ∈ samples, Reads fmt parse p.1 ∧ ∀ x ∈ p.2, Reads fmt parse x) :
    FileGives parse (addLines fmt (tranVars nodes circ) old false (samples.map (fun p => p.1 :: p.2))) nodes circ samples :=
  file_gives fmt parse old nodes circ ['T'] _ (by simp [tranVars, List.map_map, Function.comp_def, upperW_upperW])
    (by
      intro w hw
      rcases List.mem_cons.1 hw with rfl | hw
      · exact ⟨by simp, by decide⟩
      · obtain ⟨v, hv, rfl⟩ := List.mem_map.1 hw
        exact name_upper (base_names nodes circ hb v hv)) hn hu (lead_T nodes circ) samples h0 hl hx

/-- C50: the same for a periodic steady state. -/
theorem C50_pss {K : Type} (fmt : K → Word) (parse : Word → Option K) (old : List Word) (nodes : List Word)
    (circ : List (Elem α)) (hb : NoBlanks nodes circ) (hn : (nodes.map upperW).Nodup) (hu : UniqueVde circ)
    (samples : List (K × List K)) (h0 : samples ≠ [])
    (hl : ∀ p ∈ samples, p.2.length = nodes.length + (vdes circ).length)
    (hx : ∀ p ∈ samples, Reads fmt parse p.1 ∧ ∀ x ∈ p.2, Reads fmt parse x) :
    FileGives parse (addLines fmt (pssVars nodes circ) old false (samples.map (fun p => p.1 :: p.2))) nodes circ samples :=
  file_gives fmt parse old nodes circ ['T'] _ (by simp [pssVars])
    (by
      intro w hw
      rcases List.mem_cons.1 hw with rfl | hw
      · exact ⟨by simp, by decide⟩
      · exact base_names nodes circ hb w hw) hn hu (lead_T nodes circ) samples h0 hl hx

/-- C50: the same for a DC sweep, if the swept source has not the name of a node voltage.  What is missing: see the
refutation. -/
theorem C50_dc_partial {K : Type} (fmt : K → Word) (parse : Word → Option K) (old : List Word) (nodes : List Word)
    (circ : List (Elem α)) (sweep : Word) (hb : NoBlanks nodes circ) (hs : Name sweep)
    (hc : upperW sweep ∉ (baseVars nodes circ).map upperW) (hn : (nodes.map upperW).Nodup) (hu : UniqueVde circ)
    (samples : List (K × List K)) (h0 : samples ≠ [])
    (hl : ∀ p ∈ samples, p.2.length = nodes.length + (vdes circ).length)
    (hx : ∀ p ∈ samples, Reads fmt parse p.1 ∧ ∀ x ∈ p.2, Reads fmt parse x) :
    FileGives parse (addLines fmt (dcVars sweep nodes circ) old false (samples.map (fun p => p.1 :: p.2))) nodes circ
      samples :=
  file_gives fmt parse old nodes circ sweep _ (by simp [dcVars])
    (by
      intro w hw
      rcases List.mem_cons.1 hw with rfl | hw
      · exact hs
      · exact base_names nodes circ hb w hw) hn hu hc samples h0 hl hx

/-- A source `V1` at node `2` with a divider to node `1`. -/
def sweepCirc : List (Elem ℚ) := [.V "V1" 1 0 { dc := some 2 }, .R "R1" 1 2 1, .R "R2" 2 0 1]

/-- C50 fails for DC sweeps: with the source `V1` and a node called `1` the name `V1` gives the sweep values (4 and 8)
instead of the node voltage (2 and 4). -/
theorem C50_dc_refuted :
    let nodes := ["2".toList, "1".toList]
    let samples : List (Nat × List Nat) := [(4, [4, 2, 7]), (8, [8, 4, 9])]
    (nodes.map upperW).Nodup ∧ UniqueVde sweepCirc
      ∧ getItem undigit (addLines digit (dcVars "V1".toList nodes sweepCirc) [] false (samples.map (fun p => p.1 :: p.2)))
        (voltName "1".toList) = .ok (some [4, 8]) := by
  decide +kernel

example : NoBlanks ["n1".toList, "n2".toList] sweepCirc ∧ UniqueVde sweepCirc
    ∧ getItem undigit (addLines digit (tranVars ["n1".toList, "n2".toList] sweepCirc) [] false
        [[0, 4, 2, 7], [1, 8, 4, 9]]) "i(v1)".toList = .ok (some [7, 9])
    ∧ findVdeIndex sweepCirc "v1" = .ok 0 := by
  refine ⟨by unfold NoBlanks; decide +kernel, by decide +kernel, by decide +kernel, rfl⟩

end Vars

/-! ## Phasors (C93) -/

section Ac
variable {α : Type}

theorem ac_headers (nodes : List Word) (circ : List (Elem α)) (hn : (nodes.map upperW).Nodup) (hu : UniqueVde circ) :
    ((acHeaders nodes circ).map upperW).Nodup := by
  have hd := C50_distinct nodes circ hn hu
  have hf : upperW ['f'] = ['F'] := by decide
  rw [acHeaders, List.map_cons, hf, List.map_flatMap, List.nodup_cons, List.nodup_flatMap]
  refine ⟨?_, ?_, ?_⟩
  · simp [List.mem_flatMap, absName, argName, upperW]
  · intro v _
    simp [absName, argName, upperW]
  · rw [List.Nodup, List.pairwise_map] at hd
    refine hd.imp ?_
    intro a b hab x hx hy
    simp only [List.map_cons, List.map_nil, List.mem_cons, List.not_mem_nil, or_false] at hx hy
    rcases hx with rfl | rfl <;> rcases hy with h | h
    · exact hab (by simpa [absName, upperW] using h)
    · simp [absName, argName, upperW] at h
    · simp [absName, argName, upperW] at h
    · exact hab (by simpa [argName, upperW] using h)

theorem pair_get {C D : Type} (f g : C → D) (l : List C) (i : Nat) :
    (l.flatMap (fun z => [f z, g z]))[2 * i]? = l[i]?.map f ∧ (l.flatMap (fun z => [f z, g z]))[2 * i + 1]? = l[i]?.map g := by
  induction l generalizing i with
  | nil => simp
  | cons a l ih =>
    cases i with
    | zero => simp
    | succ i =>
      have := ih i
      rw [show 2 * (i + 1) = 2 * i + 2 by ring]
      simpa using this

theorem ac_names (nodes : List Word) (circ : List (Elem α)) (h : NoBlanks nodes circ) :
    ∀ w ∈ acHeaders nodes circ, Name w := by
  intro w hw
  rcases List.mem_cons.1 hw with rfl | hw
  · exact ⟨by simp, by decide⟩
  · obtain ⟨v, hv, hw⟩ := List.mem_flatMap.1 hw
    have hb := base_names nodes circ h v hv
    simp only [List.mem_cons, List.not_mem_nil, or_false] at hw
    rcases hw with rfl | rfl
    · refine ⟨by simp [absName], ?_⟩
      intro c hc
      simp only [absName, List.mem_cons, List.mem_append, List.not_mem_nil, or_false] at hc
      rcases hc with rfl | hc | rfl
      · decide
      · exact hb.2 c hc
      · decide
    · refine ⟨by simp [argName], ?_⟩
      intro c hc
      simp only [argName, List.mem_cons, List.mem_append, List.not_mem_nil, or_false] at hc
      rcases hc with rfl | rfl | rfl | rfl | hc | rfl
      iterate 4 decide
      · exact hb.2 c hc
      · decide

theorem flat_len {C D : Type} (f g : C → D) (l : List C) : (l.flatMap (fun z => [f z, g z])).length = 2 * l.length := by
  induction l with
  | nil => rfl
  | cons a l ih => simp [ih]; ring

/-- C93: what an AC result gives for a node or a current, in any letter case, is the phasor that was added for its unknown
`j`, as long as modulus and phase give the phasor back. -/
theorem C93_ac {K C : Type} (fmt : K → Word) (parse : Word → Option K) (polar : K → K → C) (real : K → C)
    (absf argf : C → K) (old : List Word) (nodes : List Word) (circ : List (Elem α)) (hb : NoBlanks nodes circ)
    (hn : (nodes.map upperW).Nodup) (hu : UniqueVde circ) (samples : List (K × List C)) (h0 : samples ≠ [])
    (hl : ∀ p ∈ samples, p.2.length = nodes.length + (vdes circ).length)
    (hx : ∀ p ∈ samples, Reads fmt parse p.1 ∧ ∀ z ∈ p.2, Reads fmt parse (absf z) ∧ Reads fmt parse (argf z))
    (hp : ∀ p ∈ samples, ∀ z ∈ p.2, polar (absf z) (argf z) = z) (j : Nat) (v name : Word)
    (hj : (baseVars nodes circ)[j]? = some v) (hname : upperW name = upperW v) :
    ∃ col, acGet polar real parse (addLines fmt (acHeaders nodes circ) old false
        (samples.map (fun p => acRow absf argf p.1 p.2))) name = .ok (some col)
      ∧ col.map some = samples.map (fun p => p.2[j]?) := by
  have hlen : (baseVars nodes circ).length = nodes.length + (vdes circ).length := by simp [baseVars, vdes]
  obtain ⟨h1, h2⟩ := List.getElem?_eq_some_iff.1 hj
  have hhl : (acHeaders nodes circ).length = 1 + 2 * (baseVars nodes circ).length := by
    rw [acHeaders, List.length_cons, flat_len]; ring
  have hF : upperW name ≠ ['F'] := by
    rw [hname]
    have hm : v ∈ baseVars nodes circ := List.mem_of_getElem? hj
    rw [baseVars, List.mem_append, List.mem_map, List.mem_map] at hm
    rcases hm with ⟨n, _, rfl⟩ | ⟨e, _, rfl⟩
    · rw [upper_voltName]; simp
    · rw [upper_currName]; simp
  have i1 : 2 * j + 1 < (acHeaders nodes circ).length := by omega
  have i2 : 2 * j + 2 < (acHeaders nodes circ).length := by omega
  have e1 : (acHeaders nodes circ)[2 * j + 1] = absName v := by
    have := (pair_get absName argName (baseVars nodes circ) j).1
    apply Option.some.inj
    rw [← List.getElem?_eq_getElem, acHeaders, List.getElem?_cons_succ, this, hj]; rfl
  have e2 : (acHeaders nodes circ)[2 * j + 2] = argName v := by
    have := (pair_get absName argName (baseVars nodes circ) j).2
    apply Option.some.inj
    rw [← List.getElem?_eq_getElem, acHeaders, List.getElem?_cons_succ, this, hj]; rfl
  have hlow := (case_iff _ _).1 hname
  have hrl : ∀ r ∈ samples.map (fun p => acRow absf argf p.1 p.2), r.length = (acHeaders nodes circ).length := by
    intro r hr
    obtain ⟨p, hpm, rfl⟩ := List.mem_map.1 hr
    rw [acRow, List.length_cons, flat_len, hhl, hl p hpm, hlen]; ring
  have hs := C48_select fmt parse old (samples.map (fun p => acRow absf argf p.1 p.2)) (acHeaders nodes circ)
    (by simp [acHeaders]) (ac_names nodes circ hb) ((lower_nodup _).2 (ac_headers nodes circ hn hu)) hrl
    (by
      intro r hr x hxr
      obtain ⟨p, hpm, rfl⟩ := List.mem_map.1 hr
      rcases List.mem_cons.1 hxr with rfl | hxr
      · exact (hx p hpm).1
      · obtain ⟨z, hz, hxz⟩ := List.mem_flatMap.1 hxr
        simp only [List.mem_cons, List.not_mem_nil, or_false] at hxz
        rcases hxz with rfl | rfl
        · exact ((hx p hpm).2 z hz).1
        · exact ((hx p hpm).2 z hz).2)
    [⟨2 * j + 1, i1⟩, ⟨2 * j + 2, i2⟩] [absName name, argName name]
    (by
      simp only [List.map_cons, List.map_nil, Fin.getElem_fin, e1, e2]
      simp only [absName, argName, lowerW, List.map_cons, List.map_append, List.map_nil] at hlow ⊢
      rw [hlow]) (by simp)
  rw [addLines_eq fmt _ _ (by simpa using h0) old, acGet]
  simp only [hF, ne_eq, not_false_eq_true, if_true, hs]
  refine ⟨_, rfl, ?_⟩
  clear hs hrl hx h0
  induction samples with
  | nil => rfl
  | cons p ps ih =>
    have hpl : j < p.2.length := by rw [hl p (by simp)]; omega
    have g1 : (acRow absf argf p.1 p.2)[2 * j + 1]? = some (absf p.2[j]) := by
      rw [acRow, List.getElem?_cons_succ, (pair_get absf argf p.2 j).1, List.getElem?_eq_getElem hpl]; rfl
    have g2 : (acRow absf argf p.1 p.2)[2 * j + 2]? = some (argf p.2[j]) := by
      rw [acRow, List.getElem?_cons_succ, (pair_get absf argf p.2 j).2, List.getElem?_eq_getElem hpl]; rfl
    have ih' := ih (fun q hq => hl q (by simp [hq])) (fun q hq => hp q (by simp [hq]))
    have hz := hp p (by simp) p.2[j] (List.getElem_mem hpl)
    have hh : acPair polar ([⟨2 * j + 1, i1⟩, ⟨2 * j + 2, i2⟩].filterMap
        (fun i : Fin (acHeaders nodes circ).length => (acRow absf argf p.1 p.2)[i.1]?)) = some p.2[j] := by
      simp only [List.filterMap_cons, List.filterMap_nil, g1, g2, acPair, hz]
    rw [List.map_cons, List.map_cons, List.filterMap_cons_some hh, List.map_cons, ih', List.map_cons,
      List.getElem?_eq_getElem hpl]

end Ac

/-! ## Poles and zeros (C94) -/

section Pz
variable {C : Type}

theorem ciGet_zip (ks : List Word) (vs : List C) (hk : (ks.map upperW).Nodup) (hl : ks.length = vs.length) (i : Nat)
    (hi : i < ks.length) (name : Word) (hname : upperW name = upperW ks[i]) :
    ciGet ((ks.zip vs).foldl (fun d p => ciUpdate d p.1 p.2) []) name = vs[i]? := by
  have hpair : ∀ p ∈ ks.zip vs, ∀ q ∈ ks.zip vs, upperW p.1 = upperW q.1 → p.1 = q.1 := by
    intro p hp q hq he
    have hp' := (List.of_mem_zip hp).1
    have hq' := (List.of_mem_zip hq).1
    exact List.inj_on_of_nodup_map hk hp' hq' he
  have h := C49_last (ks.zip vs) hpair name
  rw [ciRun] at h
  rw [h, lastValue]
  have hiv : i < vs.length := by omega
  have hmem : (ks[i], vs[i]) ∈ ks.zip vs := by
    rw [List.mem_iff_getElem]
    exact ⟨i, by simp; omega, by simp⟩
  have hsome : ((ks.zip vs).reverse.find? (fun p => decide (upperW p.1 = upperW name))).isSome := by
    rw [List.find?_isSome]
    exact ⟨_, List.mem_reverse.2 hmem, by simp [hname]⟩
  obtain ⟨q, hq⟩ := Option.isSome_iff_exists.1 hsome
  have hqm := List.mem_reverse.1 (List.mem_of_find?_eq_some hq)
  have hqe := List.find?_some hq
  simp only [decide_eq_true_eq] at hqe
  obtain ⟨j, hj, hje⟩ := List.mem_iff_getElem.1 hqm
  have hjk : j < ks.length := by simp at hj; omega
  have hq1 : q = (ks[j], vs[j]'(by omega)) := by rw [← hje]; simp
  have hij : j = i := by
    have hi' : i < (ks.map upperW).length := by simpa using hi
    have hj' : j < (ks.map upperW).length := by simpa using hjk
    apply (List.Nodup.getElem_inj_iff hk (hi := hj') (hj := hi')).1
    simp only [List.getElem_map]
    rw [← hname, ← hqe, hq1]
  subst hij
  rw [hq, hq1, List.getElem?_eq_getElem hiv]
  rfl

theorem pz_names (num : Nat → Word) (hnum : ∀ i j, upperW (num i) = upperW (num j) → i = j) (n m : Nat) :
    ((((List.range n).map (fun i => 'p' :: num i)) ++ ((List.range m).map (fun i => 'z' :: num i))).map upperW).Nodup := by
  have aux : ∀ (c : Char) (n : Nat), (((List.range n).map (fun i => c :: num i)).map upperW).Nodup := by
    intro c n
    rw [List.map_map]
    refine List.Nodup.map ?_ List.nodup_range
    intro i j h
    simp only [Function.comp_apply, upperW, List.map_cons, List.cons.injEq, true_and] at h
    exact hnum i j h
  rw [List.map_append, List.nodup_append]
  refine ⟨aux 'p' n, aux 'z' m, ?_⟩
  intro a ha b hb e
  simp only [List.map_map, List.mem_map, Function.comp_apply] at ha hb
  obtain ⟨i, _, rfl⟩ := ha
  obtain ⟨j, _, rfl⟩ := hb
  simp [upperW] at e

/-- C94: with at least one zero every pole `p0, p1, …` and zero `z0, z1, …` is found under its name, in any letter case. -/
theorem C94_found_partial (num : Nat → Word) (hnum : ∀ i j, upperW (num i) = upperW (num j) → i = j)
    (poles zeros : List C) (hz : zeros ≠ []) :
    (∀ (i : Nat) (hi : i < poles.length) (name : Word), upperW name = upperW ('p' :: num i) →
      pzGet (pzSolution num poles zeros) name = .ok poles[i])
    ∧ (∀ (i : Nat) (hi : i < zeros.length) (name : Word), upperW name = upperW ('z' :: num i) →
      pzGet (pzSolution num poles zeros) name = .ok zeros[i]) := by
  have hn := pz_names num hnum poles.length zeros.length
  have he : zeros.isEmpty = false := by simpa using hz
  have main : ∀ (i : Nat) (v : C) (name : Word)
      (hi : i < ((List.range poles.length).map (fun i => 'p' :: num i)
        ++ (List.range zeros.length).map (fun i => 'z' :: num i)).length),
      upperW name = upperW ((List.range poles.length).map (fun i => 'p' :: num i)
        ++ (List.range zeros.length).map (fun i => 'z' :: num i))[i] →
      (poles ++ zeros)[i]? = some v → pzGet (pzSolution num poles zeros) name = .ok v := by
    intro i v name hi hname hv
    have hg := ciGet_zip _ (poles ++ zeros) hn (by simp) i hi name hname
    rw [hv] at hg
    have hh := C49_membership ((((List.range poles.length).map (fun i => 'p' :: num i)
        ++ (List.range zeros.length).map (fun i => 'z' :: num i)).zip (poles ++ zeros)).foldl
          (fun d p => ciUpdate d p.1 p.2) []) name
    rw [hg] at hh
    simp only [pzGet, pzSolution, he, Bool.false_eq_true, if_false, hh, hg, Option.isSome_some, if_true]
  constructor
  · intro i hi name hname
    refine main i _ name (by simp; omega) ?_ ?_
    · rw [hname, List.getElem_append_left (by simpa using hi)]; simp
    · rw [List.getElem?_append_left hi, List.getElem?_eq_getElem hi]
  · intro i hi name hname
    refine main (poles.length + i) _ name (by simp; omega) ?_ ?_
    · rw [hname, List.getElem_append_right (by simp)]; simp
    · rw [List.getElem?_append_right (by simp), ← List.getElem?_eq_getElem hi]; simp

/-- C94 fails without zeros: no value can be read, although there are poles. -/
theorem C94_no_zeros_refuted (num : Nat → Word) (poles : List C) (name : Word) :
    pzGet (pzSolution num poles []) name = .error .attr
      ∧ (pzSolution num poles []).vars.length = poles.length := by
  simp [pzGet, pzSolution]

/-- C94: a name that is none of the variables raises KeyError, in results with zeros. -/
theorem C94_missing (num : Nat → Word) (poles zeros : List C) (hz : zeros ≠ []) (name : Word)
    (h : ∀ v ∈ (pzSolution num poles zeros).vars, upperW v ≠ upperW name) :
    pzGet (pzSolution num poles zeros) name = .error .key := by
  have he : zeros.isEmpty = false := by simpa using hz
  have hn : ciHas (((((List.range poles.length).map fun i => 'p' :: num i) ++
      (List.range zeros.length).map fun i => 'z' :: num i).zip (poles ++ zeros)).foldl (fun d p => ciUpdate d p.1 p.2) []) name =
      false := by
    unfold ciHas
    rw [decide_eq_false_iff_not, List.mem_map]
    rintro ⟨p, hp, e⟩
    obtain ⟨q, hq, e'⟩ := ciRun_keys _ p hp
    refine h p.1 ?_ e
    rw [← e']
    exact (List.of_mem_zip hq).1
  unfold pzGet pzSolution
  simp only [he, Bool.false_eq_true, if_false, hn]

def pzNum (i : Nat) : Word := List.replicate i '1'

example : (∀ i j, upperW (pzNum i) = upperW (pzNum j) → i = j)
    ∧ pzGet (pzSolution pzNum [(1 : ℚ), 2] [7]) "P1".toList = .ok 2 := by
  refine ⟨?_, rfl⟩
  intro i j h
  have := congrArg List.length h
  simpa [pzNum, upperW] using this

end Pz

/-! ## Gmin check (C52) -/

section Gmin
variable {α K : Type} [Field K] [LinearOrder K]

/-- The tolerance test of the statement for an unknown: voltages are the first `n`. -/
def Differs (tol : Tol K) (n i : Nat) (a b : K) : Prop :=
  |b - a| > (if i < n then tol.ver else tol.ier) * max |a| |b| + (if i < n then tol.vea else tol.iea)

theorem op_units (nodes : List Word) (circ : List (Elem α)) (hd : ((baseVars nodes circ).map upperW).Nodup) (x : List K)
    (i : Nat) (hi : i < (opVars nodes circ).length) :
    ciGet (opSolution nodes circ x).units (opVars nodes circ)[i] = some (if i < nodes.length then 'V' else 'A') := by
  have e : (opSolution nodes circ x).units = (((opVars nodes circ).zip
      (List.replicate nodes.length 'V' ++ List.replicate (circ.filter Elem.vde).length 'A')).foldl
        (fun d p => ciUpdate d p.1 p.2) []) := by
    simp only [opSolution, opVars, baseVars, List.map_append, List.map_map]
    congr 1
    rw [List.zip_append (by simp)]
    congr 1
    · generalize nodes = l
      induction l with
      | nil => rfl
      | cons a l ih => simp [List.replicate_succ, ih]
    · generalize circ.filter Elem.vde = l
      induction l with
      | nil => rfl
      | cons a l ih => simp [List.replicate_succ, ih]
  have hd' : ((opVars nodes circ).map upperW).Nodup := by
    simpa [opVars, upperW_upperW, List.map_map, Function.comp_def] using hd
  rw [e, ciGet_zip _ _ hd' (by simp [opVars, baseVars]) i hi _ rfl]
  have hl : (opVars nodes circ).length = nodes.length + (circ.filter Elem.vde).length := by simp [opVars, baseVars]
  by_cases h : i < nodes.length
  · rw [List.getElem?_append_left (by simpa using h)]; simp [h]
  · rw [List.getElem?_append_right (by simp; omega)]
    rw [List.getElem?_replicate, if_pos (by simp; omega), if_neg h]

theorem op_results (nodes : List Word) (circ : List (Elem α)) (hd : ((baseVars nodes circ).map upperW).Nodup) (x : List K)
    (hx : x.length = (opVars nodes circ).length) (i : Nat) (hi : i < (opVars nodes circ).length) :
    ciGet (opSolution nodes circ x).results (opVars nodes circ)[i] = x[i]? := by
  have hd' : ((opVars nodes circ).map upperW).Nodup := by
    simpa [opVars, upperW_upperW, List.map_map, Function.comp_def] using hd
  have e : (opSolution nodes circ x).results = (((opVars nodes circ).zip x).foldl (fun d p => ciUpdate d p.1 p.2) []) := by
    simp [opSolution, opVars, baseVars, List.map_map, Function.comp_def]
  rw [e, ciGet_zip _ _ hd' hx.symm i hi _ rfl]

open Classical in
/-- C52: the names listed are, in order, exactly those of the unknowns that differ by more than the tolerances. -/
theorem C52_lists (tol : Tol K) (nodes : List Word) (circ : List (Elem α)) (hn : (nodes.map upperW).Nodup)
    (hu : UniqueVde circ) (a b : List K) (ha : a.length = nodes.length + (vdes circ).length) (hb : b.length = a.length) :
    gminCheck tol (opSolution nodes circ b) (opSolution nodes circ a)
      = some ((List.range a.length).filterMap (fun i =>
          if Differs tol nodes.length i (a.getD i 0) (b.getD i 0) then (opVars nodes circ)[i]? else none)) := by
  have hd := C50_distinct nodes circ hn hu
  have hl : (opVars nodes circ).length = a.length := by simp [opVars, baseVars, ha, vdes]
  have hv : (opSolution nodes circ a).vars = opVars nodes circ := by
    simp [opSolution, opVars, baseVars, List.map_map, Function.comp_def]
  rw [gminCheck, hv]
  have main : ∀ n ≤ a.length, ((opVars nodes circ).take n).foldlM
      (gminStep tol (opSolution nodes circ b) (opSolution nodes circ a)) ([] : List Word)
      = some ((List.range n).filterMap (fun i =>
          if Differs tol nodes.length i (a.getD i 0) (b.getD i 0) then (opVars nodes circ)[i]? else none)) := by
    intro n
    induction n with
    | zero => intro _; rfl
    | succ n ih =>
      intro hle
      have hn' : n < (opVars nodes circ).length := by omega
      rw [List.take_succ_eq_append_getElem hn', List.foldlM_append, ih (by omega), List.range_succ, List.filterMap_append]
      have h1 := op_results nodes circ hd b (by omega) n hn'
      have h2 := op_results nodes circ hd a (by omega) n hn'
      have h3 := op_units nodes circ hd a n hn'
      have na : n < a.length := by omega
      have nb : n < b.length := by omega
      rw [List.getElem?_eq_getElem nb] at h1
      rw [List.getElem?_eq_getElem na] at h2
      have ga : a.getD n 0 = a[n] := by simp [na]
      have gb : b.getD n 0 = b[n] := by simp [nb]
      simp only [List.foldlM_cons, List.foldlM_nil, gminStep, Option.bind_eq_bind, Option.bind_some, h1, h2, h3, ga, gb,
        List.filterMap_cons, List.filterMap_nil, List.getElem?_eq_getElem hn', Differs]
      by_cases hnv : n < nodes.length
      · simp only [hnv, if_true]
        split_ifs <;> simp
      · simp only [hnv, if_false]
        have : ¬ ('A' = 'V') := by decide
        simp only [this, if_false, if_true]
        split_ifs <;> simp
  have := main a.length (le_refl _)
  rwa [List.take_of_length_le (by omega)] at this

/-- C52: the order of the two solutions does not matter. -/
theorem C52_symmetric [IsStrictOrderedRing K] (tol : Tol K) (nodes : List Word) (circ : List (Elem α))
    (hn : (nodes.map upperW).Nodup) (hu : UniqueVde circ) (a b : List K)
    (ha : a.length = nodes.length + (vdes circ).length) (hb : b.length = a.length) :
    gminCheck tol (opSolution nodes circ b) (opSolution nodes circ a)
      = gminCheck tol (opSolution nodes circ a) (opSolution nodes circ b) := by
  rw [C52_lists tol nodes circ hn hu a b ha hb, C52_lists tol nodes circ hn hu b a (by omega) hb.symm, hb]
  congr 1
  apply List.filterMap_congr
  intro i _
  have : Differs tol nodes.length i (a.getD i 0) (b.getD i 0) ↔ Differs tol nodes.length i (b.getD i 0) (a.getD i 0) := by
    rw [Differs, Differs, abs_sub_comm, max_comm]
  by_cases h : Differs tol nodes.length i (a.getD i 0) (b.getD i 0)
  · rw [if_pos h, if_pos (this.1 h)]
  · rw [if_neg h, if_neg (fun h' => h (this.2 h'))]

/-- C52: nothing is listed for equal solutions. -/
theorem C52_equal [IsStrictOrderedRing K] (tol : Tol K) (h1 : 0 ≤ tol.ver) (h2 : 0 ≤ tol.vea) (h3 : 0 ≤ tol.ier)
    (h4 : 0 ≤ tol.iea) (nodes : List Word) (circ : List (Elem α))
    (hn : (nodes.map upperW).Nodup) (hu : UniqueVde circ) (a : List K)
    (ha : a.length = nodes.length + (vdes circ).length) :
    gminCheck tol (opSolution nodes circ a) (opSolution nodes circ a) = some [] := by
  rw [C52_lists tol nodes circ hn hu a a ha rfl]
  have : ∀ i, ¬ Differs tol nodes.length i (a.getD i 0) (a.getD i 0) := by
    intro i
    rw [Differs, sub_self, abs_zero, not_lt]
    have hm : 0 ≤ max |a.getD i 0| |a.getD i 0| := le_max_of_le_left (abs_nonneg _)
    split_ifs <;> positivity
  simp only [this, if_false]
  simp

example : gminCheck (⟨1/1000, 1/1000000, 1/1000, 1/1000000000⟩ : Tol ℚ)
    (opSolution ["n1".toList, "n2".toList] sweepCirc [2, 1, -1])
    (opSolution ["n1".toList, "n2".toList] sweepCirc [2, 11/10, -1]) = some ["VN2".toList] := by
  decide +kernel

end Gmin

end Verif.Results
