import Verif.Model.AcRead
import Verif.Props.Results

/-!
Property C179: all ways of reading an AC result give the same phasors.
-/

namespace Verif.AcRead
open Verif.Circuit Verif.Csv Verif.Results Verif.Mna

/-- no bar in a name -/
def NoBar (w : Word) : Prop := '|' ∉ w

theorem takeWhile_all {p : Char → Bool} {l : List Char} (h : ∀ c ∈ l, p c = true) (t : List Char) :
    (l ++ t).takeWhile p = l ++ t.takeWhile p := by
  induction l with
  | nil => rfl
  | cons a l ih =>
    rw [List.cons_append, List.takeWhile_cons, h a (by simp)]
    simp [ih fun c hc => h c (by simp [hc])]

theorem bars_abs {v : Word} (h : NoBar v) : bars (absName v) = some v := by
  have h1 : (absName v).dropWhile (· ≠ '|') = '|' :: (v ++ ['|']) := by simp [absName]
  unfold bars
  rw [h1]
  simp only [List.mem_append, List.mem_singleton, or_true, if_true]
  rw [takeWhile_all (fun c hc => by simpa using fun he : c = '|' => h (he ▸ hc))]
  simp

theorem bars_none {w : Word} (h : NoBar w) : bars w = none := by
  have : w.dropWhile (· ≠ '|') = [] := by
    unfold NoBar at h
    induction w with
    | nil => rfl
    | cons a w ih =>
      rw [List.mem_cons, not_or] at h
      rw [List.dropWhile_cons, if_pos (by simpa using fun he : a = '|' => h.1 he.symm)]
      exact ih h.2
  unfold bars
  rw [this]

theorem bars_arg {v : Word} (h : NoBar v) : bars (argName v) = none := by
  apply bars_none
  unfold NoBar at h ⊢
  simp [argName, h]

theorem bars_f : bars ['f'] = none := by decide

variable {α : Type}

theorem arrayRows_ok {K C : Type} (polar : K → K → C) (real : K → C) (var0 : Word) (hs : List Word) (data : List (List K))
    (out : Nat → Option (List C)) (i : Nat) (l : List Word)
    (h : ∀ k w, l[k]? = some w → arrayRow polar real var0 hs data (i + k) w = .ok (out (i + k))) :
    arrayRows polar real var0 hs data i l = .ok ((List.range l.length).filterMap fun k => out (i + k)) := by
  induction l generalizing i with
  | nil => rfl
  | cons w l ih =>
    have h0 := h 0 w rfl
    rw [Nat.add_zero] at h0
    have h1 := ih (i + 1) fun k w' hk => by
      have := h (k + 1) w' (by simpa using hk)
      rw [show i + (k + 1) = i + 1 + k by omega] at this
      exact this
    simp only [arrayRows, h0, h1]
    rw [List.length_cons, List.range_succ_eq_map, List.filterMap_cons, List.filterMap_map]
    have hf : ((fun k => out (i + k)) ∘ Nat.succ) = fun k => out (i + 1 + k) := by
      funext k
      simp only [Function.comp]
      congr 1
      omega
    rw [hf, Nat.add_zero]
    cases out i <;> rfl

theorem range_odd {C : Type} (n : Nat) (a : C) (f : Nat → C) (out : Nat → Option C) (h0 : out 0 = some a)
    (h1 : ∀ j < n, out (2 * j + 1) = some (f j)) (h2 : ∀ j < n, out (2 * j + 2) = none) :
    (List.range (1 + 2 * n)).filterMap out = a :: (List.range n).map f := by
  induction n with
  | zero => simp [h0]
  | succ n ih =>
    rw [show 1 + 2 * (n + 1) = (1 + 2 * n) + 1 + 1 by ring, List.range_succ, List.range_succ, List.filterMap_append,
      List.filterMap_append, ih (fun j hj => h1 j (by omega)) (fun j hj => h2 j (by omega))]
    have e1 := h1 n (by omega)
    have e2 := h2 n (by omega)
    rw [show 1 + 2 * n = 2 * n + 1 by ring, List.range_succ, List.map_append]
    simp [e1, e2]

theorem base_nobar {nodes : List Word} {circ : List (Elem α)} (h1 : ∀ n ∈ nodes, NoBar n) (h2 : ∀ e ∈ circ, NoBar (upper e.id)) :
    ∀ v ∈ baseVars nodes circ, NoBar v := by
  intro v hv
  rw [baseVars, List.mem_append, List.mem_map, List.mem_map] at hv
  rcases hv with ⟨n, hn, rfl⟩ | ⟨e, he, rfl⟩
  · have := h1 n hn
    simpa [NoBar, voltName] using this
  · have := h2 e (List.mem_filter.1 he).1
    simpa [NoBar, currName] using this

/-- C179: the array of an AC result holds the frequencies and then for every variable, in their order, the phasors that were
added, if no name contains a bar. -/
theorem C179_array_partial {K C : Type} (fmt : K → Word) (parse : Word → Option K) (polar : K → K → C) (real : K → C)
    (absf argf : C → K) (old : List Word) (nodes : List Word) (circ : List (Elem α)) (hb : NoBlanks nodes circ)
    (hn : (nodes.map upperW).Nodup) (hu : UniqueVde circ) (h1 : ∀ n ∈ nodes, NoBar n) (h2 : ∀ e ∈ circ, NoBar (upper e.id))
    (samples : List (K × List C)) (h0 : samples ≠ [])
    (hl : ∀ p ∈ samples, p.2.length = nodes.length + (vdes circ).length)
    (hx : ∀ p ∈ samples, Reads fmt parse p.1 ∧ ∀ z ∈ p.2, Reads fmt parse (absf z) ∧ Reads fmt parse (argf z))
    (hp : ∀ p ∈ samples, ∀ z ∈ p.2, polar (absf z) (argf z) = z) :
    acArray polar real parse (addLines fmt (acHeaders nodes circ) old false
        (samples.map (fun p => acRow absf argf p.1 p.2))) ['f'] =
      .ok ((samples.map fun p => real p.1) ::
        (List.range (nodes.length + (vdes circ).length)).map fun j => samples.filterMap fun p => p.2[j]?) := by
  set rows := samples.map (fun p => acRow absf argf p.1 p.2) with hrows
  have hlen : (baseVars nodes circ).length = nodes.length + (vdes circ).length := by simp [baseVars, vdes]
  have hhl : (acHeaders nodes circ).length = 1 + 2 * (baseVars nodes circ).length := by
    rw [acHeaders, List.length_cons, flat_len]; ring
  have hrl : ∀ r ∈ rows, r.length = (acHeaders nodes circ).length := by
    intro r hr
    obtain ⟨p, hpm, rfl⟩ := List.mem_map.1 hr
    rw [acRow, List.length_cons, flat_len, hhl, hl p hpm, hlen]; ring
  have hload := C48_roundtrip fmt parse old rows (acHeaders nodes circ) (by simp [acHeaders]) (ac_names nodes circ hb) hrl (by
      intro r hr x hxr
      obtain ⟨p, hpm, rfl⟩ := List.mem_map.1 hr
      rcases List.mem_cons.1 hxr with rfl | hxr
      · exact (hx p hpm).1
      · obtain ⟨z, hz, hxz⟩ := List.mem_flatMap.1 hxr
        simp only [List.mem_cons, List.not_mem_nil, or_false] at hxz
        rcases hxz with rfl | rfl
        · exact ((hx p hpm).2 z hz).1
        · exact ((hx p hpm).2 z hz).2)
  rw [addLines_eq fmt _ _ (by simpa [hrows] using h0) old, acArray, hload]
  simp only
  have hH := ac_headers nodes circ hn hu
  have hhead : ∀ j v, (baseVars nodes circ)[j]? = some v →
      (acHeaders nodes circ)[2 * j + 1]? = some (absName v) ∧ (acHeaders nodes circ)[2 * j + 2]? = some (argName v) := by
    intro j v hj
    constructor
    · rw [acHeaders, List.getElem?_cons_succ, (pair_get absName argName (baseVars nodes circ) j).1, hj]; rfl
    · rw [acHeaders, List.getElem?_cons_succ, (pair_get absName argName (baseVars nodes circ) j).2, hj]; rfl
  have hcol0 : (column rows 0).map real = samples.map fun p => real p.1 := by
    clear_value rows
    subst hrows
    unfold column
    rw [List.filterMap_map]
    clear hload hrl h0 hl hx hp
    induction samples with
    | nil => rfl
    | cons p ps ih =>
      rw [List.filterMap_cons_some (by rfl : ((fun x : List K => x[0]?) ∘ fun p : K × List C => acRow absf argf p.1 p.2) p = some p.1)]
      rw [List.map_cons, List.map_cons, ih]
  have hcolj : ∀ j < nodes.length + (vdes circ).length,
      List.zipWith polar (column rows (2 * j + 1)) (column rows (2 * j + 2)) = samples.filterMap fun p => p.2[j]? := by
    intro j hj
    clear_value rows
    subst hrows
    unfold column
    clear hload hrl h0 hx hcol0
    induction samples with
    | nil => rfl
    | cons p ps ih =>
      have hpl : j < p.2.length := by rw [hl p (by simp)]; omega
      have g1 : (acRow absf argf p.1 p.2)[2 * j + 1]? = some (absf p.2[j]) := by
        rw [acRow, List.getElem?_cons_succ, (pair_get absf argf p.2 j).1, List.getElem?_eq_getElem hpl]; rfl
      have g2 : (acRow absf argf p.1 p.2)[2 * j + 2]? = some (argf p.2[j]) := by
        rw [acRow, List.getElem?_cons_succ, (pair_get absf argf p.2 j).2, List.getElem?_eq_getElem hpl]; rfl
      rw [List.map_cons, List.filterMap_cons_some (f := fun x : List K => x[2 * j + 1]?) g1,
        List.filterMap_cons_some (f := fun x : List K => x[2 * j + 2]?) g2, List.zipWith_cons_cons,
        ih (fun q hq => hl q (by simp [hq])) (fun q hq => hp q (by simp [hq])),
        List.filterMap_cons_some (f := fun p : K × List C => p.2[j]?) (List.getElem?_eq_getElem hpl), hp p (by simp) _ (List.getElem_mem hpl)]
  have hnb := base_nobar (circ := circ) h1 h2
  have hval : ∀ k w, (acHeaders nodes circ)[k]? = some w → arrayRow polar real ['f'] (acHeaders nodes circ) rows (0 + k) w =
      .ok (if k = 0 then some (samples.map fun p => real p.1)
        else if k % 2 = 1 then some (samples.filterMap fun p => p.2[k / 2]?) else none) := by
    intro k w hk
    have hklt : k < 1 + 2 * (baseVars nodes circ).length := by
      rw [← hhl]; exact (List.getElem?_eq_some_iff.1 hk).1
    rw [Nat.zero_add]
    rcases Nat.eq_zero_or_pos k with rfl | hpos
    · have hw : w = ['f'] := by
        rw [acHeaders, List.getElem?_cons_zero] at hk
        exact (Option.some.inj hk).symm
      subst hw
      simp [arrayRow, hcol0]
    · obtain ⟨j, hj | hj⟩ : ∃ j, k = 2 * j + 1 ∨ k = 2 * j + 2 := ⟨(k - 1) / 2, by omega⟩
      · subst hj
        have hjl : j < (baseVars nodes circ).length := by omega
        obtain ⟨ha, hg⟩ := hhead j _ (List.getElem?_eq_getElem hjl)
        have hw : w = absName (baseVars nodes circ)[j] := Option.some.inj (hk.symm.trans ha)
        subst hw
        have hv := hnb _ (List.getElem_mem hjl)
        have hne : upperW (absName (baseVars nodes circ)[j]) ≠ upperW ['f'] := by
          simp [absName, upperW]
        have hix : indexOf? (upperW (argName (baseVars nodes circ)[j])) ((acHeaders nodes circ).map upperW) = some (2 * j + 2) := by
          refine indexOf?_spec _ _ hH _ (by rw [List.length_map, hhl]; omega) ?_
          rw [List.getElem_map]
          congr 1
          exact (List.getElem?_eq_some_iff.1 hg).2
        unfold arrayRow
        rw [if_neg hne, bars_abs hv]
        simp only [hix]
        rw [hcolj j (by omega), if_neg (by omega), if_pos (by omega), show (2 * j + 1) / 2 = j by omega]
      · subst hj
        have hjl : j < (baseVars nodes circ).length := by omega
        obtain ⟨ha, hg⟩ := hhead j _ (List.getElem?_eq_getElem hjl)
        have hw : w = argName (baseVars nodes circ)[j] := Option.some.inj (hk.symm.trans hg)
        subst hw
        have hv := hnb _ (List.getElem_mem hjl)
        have hne : upperW (argName (baseVars nodes circ)[j]) ≠ upperW ['f'] := by
          simp [argName, upperW]
        unfold arrayRow
        rw [if_neg hne, bars_arg hv, if_neg (by omega), if_neg (by omega)]
  rw [arrayRows_ok polar real ['f'] (acHeaders nodes circ) rows (fun k => if k = 0 then some (samples.map fun p => real p.1)
        else if k % 2 = 1 then some (samples.filterMap fun p => p.2[k / 2]?) else none) 0 _ (fun k w hk => by
          rw [hval k w hk, Nat.zero_add])]
  rw [hhl, hlen]
  simp only [Nat.zero_add]
  rw [range_odd (nodes.length + (vdes circ).length) (samples.map fun p => real p.1)
    (fun j => samples.filterMap fun p => p.2[j]?) _ (by simp)
    (by intro j _; rw [if_neg (by omega), if_pos (by omega), show (2 * j + 1) / 2 = j by omega])
    (by intro j _; rw [if_neg (by omega), if_neg (by omega)])]

/-- C179: the items of an AC result are the frequencies and, for every variable, what is found under its name. -/
theorem C179_items_partial {K C : Type} (fmt : K → Word) (parse : Word → Option K) (polar : K → K → C) (real : K → C)
    (absf argf : C → K) (old : List Word) (nodes : List Word) (circ : List (Elem α)) (hb : NoBlanks nodes circ)
    (hn : (nodes.map upperW).Nodup) (hu : UniqueVde circ) (h1 : ∀ n ∈ nodes, NoBar n) (h2 : ∀ e ∈ circ, NoBar (upper e.id))
    (samples : List (K × List C)) (h0 : samples ≠ [])
    (hl : ∀ p ∈ samples, p.2.length = nodes.length + (vdes circ).length)
    (hx : ∀ p ∈ samples, Reads fmt parse p.1 ∧ ∀ z ∈ p.2, Reads fmt parse (absf z) ∧ Reads fmt parse (argf z))
    (hp : ∀ p ∈ samples, ∀ z ∈ p.2, polar (absf z) (argf z) = z) :
    ∃ items, acItems polar real parse (addLines fmt (acHeaders nodes circ) old false
        (samples.map (fun p => acRow absf argf p.1 p.2))) (acVars nodes circ) = .ok ((['f'], samples.map fun p => real p.1) :: items) ∧
      items.map Prod.fst = baseVars nodes circ ∧
      ∀ q ∈ items, acGet polar real parse (addLines fmt (acHeaders nodes circ) old false
        (samples.map (fun p => acRow absf argf p.1 p.2))) q.1 = .ok (some q.2) := by
  have hA := C179_array_partial fmt parse polar real absf argf old nodes circ hb hn hu h1 h2 samples h0 hl hx hp
  have hlen : (baseVars nodes circ).length = nodes.length + (vdes circ).length := by simp [baseVars, vdes]
  refine ⟨(baseVars nodes circ).zip ((List.range (nodes.length + (vdes circ).length)).map
    fun j => samples.filterMap fun p => p.2[j]?), ?_, ?_, ?_⟩
  · unfold acItems acVars
    simp only [hA, List.zip_cons_cons]
  · rw [List.map_fst_zip]
    simp [hlen]
  · intro q hq
    obtain ⟨j, hj⟩ := List.mem_iff_getElem?.1 hq
    rw [List.getElem?_zip_eq_some, List.getElem?_map] at hj
    obtain ⟨e1, e2⟩ := hj
    have hjl : j < nodes.length + (vdes circ).length := by
      rw [← hlen]; exact (List.getElem?_eq_some_iff.1 e1).1
    rw [List.getElem?_range hjl] at e2
    obtain ⟨col, g1, g2⟩ := C93_ac fmt parse polar real absf argf old nodes circ hb hn hu samples h0 hl hx hp j q.1 q.1 e1 rfl
    rw [g1]
    congr 2
    have : samples.filterMap (fun p => p.2[j]?) = q.2 := Option.some.inj e2
    rw [← this]
    have h3 := congrArg (List.filterMap (fun o : Option C => o)) g2
    simpa [List.filterMap_map, Function.comp_def] using h3

/-! ### Names with bars -/

/-- a circuit with the nodes `a` and `a|b` -/
def barNodes : List Word := ["a".toList, "a|b".toList]

def barCirc : List (Elem ℚ) := [.R "R1" 1 2 1, .R "R2" 2 0 1]

/-- the file with one frequency, modulus and phase as digits: 1 at angle 2 for `a`, 3 at angle 4 for `a|b` -/
def barFile : List Word := addLines digit (acHeaders barNodes barCirc) [] false [acRow Prod.fst Prod.snd 5 [(1, 2), (3, 4)]]

/-- C179, refuted: with a bar in the name of a node the array has the phase of another node, and with different names there is
no array at all. -/
theorem C179_bar_refuted : acArray Prod.mk (fun k : Nat => (k, 0)) undigit barFile ['f'] = .ok [[(5, 0)], [(1, 2)], [(3, 2)]] ∧
    acGet Prod.mk (fun k : Nat => (k, 0)) undigit barFile "Va|b".toList = .ok (some [(3, 4)]) ∧
    acArray Prod.mk (fun k : Nat => (k, 0)) undigit (addLines digit (acHeaders ["c".toList, "a|b".toList] barCirc) [] false
      [acRow Prod.fst Prod.snd 5 [(1, 2), (3, 4)]]) ['f'] = .error .value := by
  refine ⟨by decide +kernel, by decide +kernel, by decide +kernel⟩

/-- hypotheses of the theorems: nodes `a` and `b` -/
example : NoBlanks ["a".toList, "b".toList] barCirc ∧ (∀ n ∈ ["a".toList, "b".toList], NoBar n) ∧
    (∀ e ∈ barCirc, NoBar (upper e.id)) ∧
    acArray Prod.mk (fun k : Nat => (k, 0)) undigit (addLines digit (acHeaders ["a".toList, "b".toList] barCirc) [] false
      [acRow Prod.fst Prod.snd 5 [(1, 2), (3, 4)]]) ['f'] = .ok [[(5, 0)], [(1, 2)], [(3, 4)]] := by
  refine ⟨by unfold NoBlanks; decide +kernel, by unfold NoBar; decide +kernel, by unfold NoBar; decide +kernel, by decide +kernel⟩

end Verif.AcRead
