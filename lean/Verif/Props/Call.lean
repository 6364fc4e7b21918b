import Verif.Model.Call
import Verif.Props.Directive

/-!
C97: analysis descriptions are accepted by the functions that execute them.
-/

namespace Verif.Call
open Verif.Directive

theorem loop_keys (tokens : List (List Char)) : ∀ (ps : List Tok) (i : Nat) (an : Dict)
    (ps' : List Tok) (an' : Dict), loop ps i tokens an = some (ps', an') →
    (∀ k, an' k ≠ none → an k ≠ none ∨ ∃ p ∈ ps, p.dest = k) ∧
    (∀ k, an k ≠ none → an' k ≠ none) ∧
    (∀ p ∈ ps, p ∈ ps' ∨ an' p.dest ≠ none) ∧ (∀ p ∈ ps', p ∈ ps) := by
  induction tokens with
  | nil =>
    intro ps i an ps' an' h
    simp only [loop, Option.some.injEq, Prod.mk.injEq] at h
    obtain ⟨rfl, rfl⟩ := h
    exact ⟨fun k h => Or.inl h, fun k h => h, fun p h => Or.inl h, fun p h => h⟩
  | cons tok rest ih =>
    intro ps i an ps' an' h
    simp only [loop] at h
    split at h
    · simp only [Option.some.injEq, Prod.mk.injEq] at h
      obtain ⟨rfl, rfl⟩ := h
      exact ⟨fun k h => Or.inl h, fun k h => h, fun p h => Or.inl h, fun p h => h⟩
    · cases hf : ps.find? (fits i (split tok).1) with
      | none => rw [hf] at h; simp at h
      | some t =>
        rw [hf] at h
        simp only at h
        have ht : t ∈ ps := List.mem_of_find?_eq_some hf
        cases hc : Verif.Small.convert (split tok).2 t.type with
        | none => rw [hc] at h; simp at h
        | some v =>
          rw [hc] at h
          simp only at h
          obtain ⟨h1, h2, h3, h4⟩ := ih _ _ _ _ _ h
          refine ⟨fun k hk => ?_, fun k hk => ?_, fun p hp => ?_, fun p hp =>
            List.mem_of_mem_erase (h4 p hp)⟩
          · rcases h1 k hk with h | ⟨p, hp, hpk⟩
            · by_cases hd : k = t.dest
              · exact Or.inr ⟨t, ht, hd.symm⟩
              · left; simpa [Dict.set, hd] using h
            · exact Or.inr ⟨p, List.mem_of_mem_erase hp, hpk⟩
          · apply h2
            by_cases hd : k = t.dest
            · simp [Dict.set, hd]
            · simpa [Dict.set, hd] using hk
          · by_cases hpt : p = t
            · right
              apply h2
              simp [Dict.set, hpt]
            · exact h3 p ((List.mem_erase_of_ne hpt).2 hp)

theorem defaults_keys (ps : List Tok) : ∀ (an : Dict) (k : String),
    (ps.foldl (fun an t => an.set t.dest t.default) an) k ≠ none ↔
      an k ≠ none ∨ ∃ p ∈ ps, p.dest = k := by
  induction ps with
  | nil => simp
  | cons t ps ih =>
    intro an k
    rw [List.foldl_cons, ih]
    by_cases hk : k = t.dest
    · simp [Dict.set, hk]
    · have : ¬ t.dest = k := fun h => hk h.symm
      simp [Dict.set, hk, this]

/-- The entries of an accepted line are exactly the destinations of the specification. -/
theorem bind_keys (spec : List Tok) (tokens : List (List Char)) (an0 an : Dict)
    (h : bind spec tokens an0 = some an) (k : String) :
    (an k).isSome = true ↔ (an0 k).isSome = true ∨ ∃ p ∈ spec, p.dest = k := by
  simp only [Option.isSome_iff_ne_none]
  unfold Directive.bind at h
  cases hl : loop spec 0 tokens an0 with
  | none => rw [hl] at h; simp at h
  | some r =>
    obtain ⟨ps', an'⟩ := r
    rw [hl] at h
    simp only [finish] at h
    split at h
    · simp at h
    · simp only [Option.some.injEq] at h
      subst h
      obtain ⟨h1, h2, h3, h4⟩ := loop_keys tokens _ _ _ _ _ hl
      rw [defaults_keys]
      constructor
      · rintro (h | ⟨p, hp, hk⟩)
        · exact h1 k h
        · exact Or.inr ⟨p, h4 p hp, hk⟩
      · rintro (h | ⟨p, hp, hk⟩)
        · exact Or.inl (h2 k h)
        · rcases h3 p hp with h | h
          · exact Or.inr ⟨p, h, hk⟩
          · exact Or.inl (by rwa [← hk])

/-- What `main` passes for a directive: a fixed set of names for each type. -/
def directiveKeys : String → List String
  | "op" => ["guess", "x0"]
  | "dc" => ["source", "start", "stop", "step", "sweep_type"]
  | "ac" => ["sweep_type", "points", "start", "stop"]
  | "tran" => ["tstep", "tstop", "tstart", "x0", "method"]
  | "pss" => ["period", "points", "step", "autonomous", "method"]
  | "symbolic" => ["source", "ac_enable", "r0s"]
  | "pz" => ["output_port", "input_source", "shift", "x0"]
  | _ => []

theorem tranFix_keys (an an' : Dict) (h : tranFix an = .ok an') (hx : (an "x0").isSome = true)
    (k : String) : (an' k).isSome = true ↔ k ≠ "uic" ∧ (an k).isSome = true := by
  have key : ∀ v, ((Dict.set (fun k => if k = "uic" then none else an k) "x0" v) k).isSome = true ↔
      k ≠ "uic" ∧ (an k).isSome = true := by
    intro v
    by_cases h0 : k = "x0"
    · subst h0; simp [Dict.set, hx]
    · by_cases h1 : k = "uic" <;> simp [Dict.set, h0, h1]
  unfold tranFix at h
  simp only at h
  split at h
  · split at h
    · cases h; exact key _
    · split at h
      · cases h; exact key _
      · split at h
        · cases h; exact key _
        · split at h
          · cases h
            by_cases h1 : k = "uic" <;> simp [h1]
          · cases h
  · cases h
  · cases h; exact key _
  · cases h

/-- The entries of an accepted analysis directive. -/
theorem parse_keys (ty : String) (tokens : List (List Char)) (an : Dict)
    (h : parseAnalysis ty tokens = .ok an) (k : String) :
    mainKeys an k = true ↔ k ∈ "outfile" :: "verbose" :: directiveKeys ty := by
  unfold parseAnalysis at h
  cases hs : specs ty with
  | none => rw [hs] at h; simp at h
  | some spec =>
    rw [hs] at h
    simp only at h
    cases hb : bind spec tokens (fun k => if k = "type" then some (txt ty) else none) with
    | none => rw [hb] at h; simp at h
    | some an0 =>
      rw [hb] at h
      simp only at h
      have hk := bind_keys spec tokens _ an0 hb
      have hk' : ∀ k, k ≠ "type" → ((an0 k).isSome = true ↔ ∃ p ∈ spec, p.dest = k) := by
        intro k hne
        rw [hk k]; simp [hne]
      have fin : ∀ (a : Dict) (l : List String), "type" ∉ l →
          (∀ k, k ≠ "type" → ((a k).isSome = true ↔ k ∈ l)) →
          (mainKeys a k = true ↔ k ∈ "outfile" :: "verbose" :: l) := by
        intro a l hl ha
        by_cases ht : k = "type"
        · subst ht; simp [mainKeys, hl]
        · simp only [mainKeys, Bool.and_eq_true, bne_iff_ne, ne_eq, ht, not_false_eq_true,
            true_and, Bool.or_eq_true, beq_iff_eq, ha k ht, List.mem_cons]
          tauto
      by_cases htr : ty = "tran"
      · subst htr
        rw [if_pos rfl] at h
        have hsp : spec = specTran := by simpa [specs] using hs.symm
        subst hsp
        have hx : (an0 "x0").isSome = true := (hk' "x0" (by decide)).2 (by simp [specTran])
        refine fin an _ (by decide) fun k hne => ?_
        rw [tranFix_keys an0 an h hx, hk' k hne]
        simp only [specTran, List.mem_cons, List.not_mem_nil, or_false, exists_eq_or_imp,
          exists_eq_left, directiveKeys]
        constructor
        · rintro ⟨h1, rfl | rfl | rfl | rfl | rfl | rfl⟩ <;> simp at h1 ⊢
        · rintro (rfl | rfl | rfl | rfl | rfl) <;> simp
      · rw [if_neg htr] at h
        by_cases hpz : ty = "pz"
        · subst hpz
          rw [if_pos rfl] at h
          cases h
          have hsp : spec = specPz := by simpa [specs] using hs.symm
          subst hsp
          refine fin _ _ (by decide) fun k hne => ?_
          by_cases h0 : k = "x0"
          · subst h0; simp [Dict.set, directiveKeys]
          · have : (Dict.set an0 "x0" (txt "op") k) = an0 k := by simp [Dict.set, h0]
            rw [this, hk' k hne]
            simp only [specPz, List.mem_cons, List.not_mem_nil, or_false, exists_eq_or_imp,
              exists_eq_left, directiveKeys, h0]
            simp only [eq_comm]
        · rw [if_neg hpz] at h
          cases h
          have hdir : (spec.map (fun p => p.dest)) = directiveKeys ty ∧
              "type" ∉ directiveKeys ty := by
            unfold specs at hs
            split at hs <;>
              first
              | (cases hs; exact ⟨rfl, by decide⟩)
              | (exfalso; first | exact htr rfl | exact hpz rfl | cases hs)
          refine fin _ _ hdir.2 fun k hne => ?_
          rw [hk' k hne, ← hdir.1, List.mem_map]

/-! ### Theorems -/

/-- Decidable form of `Binds` for a finite set of names. -/
theorem binds_of (s : Sig) (l : List String) (keys : String → Bool)
    (hk : ∀ k, keys k = true ↔ k ∈ l)
    (h1 : l.all (fun k => s.required.contains k || s.optional.contains k) = true)
    (h2 : s.required.all (fun k => l.contains k) = true) (h3 : l.contains s.first = false) :
    Binds s keys := by
  refine ⟨fun k h => ?_, fun k h => ?_, ?_⟩
  · have := List.all_eq_true.1 h1 k ((hk k).1 h)
    simpa using this
  · have := List.all_eq_true.1 h2 k h
    exact (hk k).2 (by simpa using this)
  · cases hc : keys s.first with
    | false => rfl
    | true =>
      have := (hk _).1 hc
      simp [this] at h3

/-- Every analysis directive that the parser accepts gives a description that the function
executing it accepts. -/
theorem C97_directives (ty : String) (tokens : List (List Char)) (an : Dict)
    (h : parseAnalysis ty tokens = .ok an) : Accepted ty (mainKeys an) := by
  have hk := parse_keys ty tokens an h
  have hm : ∀ l : List String, (∀ k, mainKeys an k = true ↔ k ∈ l) →
      ∀ k, (k != "method" && mainKeys an k) = true ↔ k ∈ l.filter (fun k => k != "method") := by
    intro l hl k
    simp [List.mem_filter, hl, and_comm]
  have hty : specs ty ≠ none := by
    intro hs
    simp [parseAnalysis, hs] at h
  unfold specs at hty
  split at hty
  · exact binds_of _ _ _ hk (by decide) (by decide) (by decide)
  · exact binds_of _ _ _ hk (by decide) (by decide) (by decide)
  · exact binds_of _ _ _ hk (by decide) (by decide) (by decide)
  · exact binds_of _ _ _ hk (by decide) (by decide) (by decide)
  · exact ⟨(hk _).2 (by decide), binds_of _ _ _ (hm _ hk) (by decide) (by decide) (by decide),
      binds_of _ _ _ (hm _ hk) (by decide) (by decide) (by decide)⟩
  · exact binds_of _ _ _ hk (by decide) (by decide) (by decide)
  · exact binds_of _ _ _ hk (by decide) (by decide) (by decide)
  · exact absurd rfl hty

/-- What the constructors `new_*` return is accepted. -/
theorem C97_new (ty : String) (l : List String) (h : newKeys ty = some l) :
    Accepted ty (fun k => l.contains k) := by
  have hk : ∀ k, l.contains k = true ↔ k ∈ l := by simp
  have hm : ∀ k, (k != "method" && l.contains k) = true ↔
      k ∈ l.filter (fun k => k != "method") := by
    intro k
    simp [List.mem_filter, and_comm]
  unfold newKeys at h
  split at h <;> first
    | (cases h; exact binds_of _ _ _ hk (by decide) (by decide) (by decide))
    | (cases h; exact ⟨(hk _).2 (by decide),
        binds_of _ _ _ hm (by decide) (by decide) (by decide),
        binds_of _ _ _ hm (by decide) (by decide) (by decide)⟩)
    | cases h

/-- What `parse_temp_directive` returns is refused by the function registered for it, with or
without what `main` adds. -/
theorem C97_temp_refuted (keys : String → Bool) (h : ∀ k ∈ tempKeys, keys k = true) :
    ¬ Accepted "temp" keys := by
  intro hb
  have := hb.1 "temp" (h "temp" (by decide))
  simp [sigTemp] at this

/-- And a `.temp` line is refused by the parser: there is no way to set the temperature from a
netlist. -/
theorem C97_temp_line_refuted (tokens : List (List Char)) :
    parseAnalysis "temp" tokens = .parseError := by
  unfold parseAnalysis
  rfl

/-- Was the line accepted? -/
def isOk : Out → Bool
  | .ok _ => true
  | _ => false

example : ∃ an, parseAnalysis "dc" ["v1".toList, "0".toList, "5".toList, "1".toList] = .ok an ∧
    Accepted "dc" (mainKeys an) := by
  have h : isOk (parseAnalysis "dc" ["v1".toList, "0".toList, "5".toList, "1".toList]) = true := by
    decide +kernel
  generalize hp : parseAnalysis "dc" ["v1".toList, "0".toList, "5".toList, "1".toList] = o at h
  cases o with
  | ok an => exact ⟨an, rfl, C97_directives _ _ _ hp⟩
  | _ => simp [isOk] at h

end Verif.Call
