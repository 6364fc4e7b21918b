import Verif.Model.NewAn
import Verif.Props.Directive
import Mathlib.Data.List.Induction
import Mathlib.Tactic.SplitIfs
import Mathlib.Tactic.FieldSimp
import Mathlib.Tactic.Ring

/-!
C226: a directive of a netlist and a call of a `new_*` function with the same values start the same analysis.
-/

namespace Verif.NewAn
open Verif.Small Verif.Directive

/-- `f(circ, **d)` binds: no unexpected keyword, no missing argument -/
structure Accepted (s : List Param) (d : Dict) : Prop where
  known : ∀ k, (d k).isSome = true → ∃ p ∈ s, p.name = k
  given : ∀ p ∈ s, p.default = none → (d p.name).isSome = true

/-- both descriptions can be run, and start the same analysis: the same function with the same values of all parameters, except for the
name of the results file and the verbosity -/
def Same (an an' : Dict) : Prop :=
  ∃ s d d', target an = some (s, d) ∧ target an' = some (s, d') ∧ Accepted s d ∧ Accepted s d' ∧
    ∀ p ∈ s, p.name ≠ "outfile" → p.name ≠ "verbose" → value d p = value d' p

theorem loop_keys : ∀ (tokens : List (List Char)) (ps : List Tok) (i : Nat) (an : Dict) (ps' : List Tok) (an' : Dict),
    loop ps i tokens an = some (ps', an') →
    (∀ p ∈ ps', p ∈ ps) ∧ (∀ p ∈ ps, p ∈ ps' ∨ ∃ v, an' p.dest = some (some v)) ∧
    (∀ k v, an k = some (some v) → ∃ v', an' k = some (some v')) ∧ ∀ k, (∀ p ∈ ps, p.dest ≠ k) → an' k = an k
  | [], ps, i, an, ps', an', h => by
    simp only [loop, Option.some.injEq, Prod.mk.injEq] at h
    obtain ⟨rfl, rfl⟩ := h
    exact ⟨fun _ h => h, fun _ h => .inl h, fun _ v h => ⟨v, h⟩, fun _ _ => rfl⟩
  | tok :: rest, ps, i, an, ps', an', h => by
    rw [loop] at h
    split_ifs at h
    · simp only [Option.some.injEq, Prod.mk.injEq] at h
      obtain ⟨rfl, rfl⟩ := h
      exact ⟨fun _ h => h, fun _ h => .inl h, fun _ v h => ⟨v, h⟩, fun _ _ => rfl⟩
    · simp only at h
      split at h
      · cases h
      · rename_i t hf
        split at h
        · cases h
        · rename_i v hv
          have ht := List.mem_of_find?_eq_some hf
          obtain ⟨a1, a2, a3, a4⟩ := loop_keys rest _ _ _ _ _ h
          have hset : ∃ v', an' t.dest = some (some v') := a3 t.dest v (by simp [Dict.set])
          refine ⟨fun p hp => List.mem_of_mem_erase (a1 p hp), fun p hp => ?_, fun k w hk => ?_, fun k hk => ?_⟩
          · by_cases e : p = t
            · exact .inr (e ▸ hset)
            · exact a2 p ((List.mem_erase_of_ne e).2 hp)
          · by_cases e : k = t.dest
            · exact e ▸ hset
            · exact a3 k w (by simp [Dict.set, e, hk])
          · rw [a4 k fun p hp => hk p (List.mem_of_mem_erase hp)]
            simp [Dict.set, (hk t ht).symm]

theorem finish_keys (ps : List Tok) (an : Dict) :
    (∀ p ∈ ps, ∃ q ∈ ps, q.dest = p.dest ∧ (ps.foldl (fun an t => an.set t.dest t.default) an) p.dest = some q.default) ∧
    ∀ k, (∀ p ∈ ps, p.dest ≠ k) → (ps.foldl (fun an t => an.set t.dest t.default) an) k = an k := by
  induction ps using List.reverseRecOn with
  | nil => simp
  | append_singleton l t ih =>
    rw [List.foldl_append]
    refine ⟨fun p hp => ?_, fun k hk => ?_⟩
    · by_cases e : p.dest = t.dest
      · exact ⟨t, by simp, e.symm, by simp [Dict.set, e]⟩
      · have hpl : p ∈ l := by
          rcases List.mem_append.1 hp with h | h
          · exact h
          · simp only [List.mem_singleton] at h; exact absurd (by rw [h]) e
        obtain ⟨q, h1, h2, h3⟩ := ih.1 p hpl
        exact ⟨q, List.mem_append_left _ h1, h2, by simp [Dict.set, e, h3]⟩
    · have := ih.2 k fun p hp => hk p (List.mem_append_left _ hp)
      simp only [List.foldl_cons, List.foldl_nil]
      rw [Dict.set, if_neg (fun e => hk t (by simp) e.symm), this]

theorem bind_keys {spec : List Tok} {tokens : List (List Char)} {an0 an : Dict} (h : Directive.bind spec tokens an0 = some an) :
    (∀ p ∈ spec, (∃ v, an p.dest = some (some v)) ∨ ∃ q ∈ spec, q.dest = p.dest ∧ q.needed = false ∧ an p.dest = some q.default) ∧
    ∀ k, (∀ p ∈ spec, p.dest ≠ k) → an k = an0 k := by
  unfold Directive.bind at h
  split at h
  · cases h
  · rename_i ps an1 hl
    obtain ⟨a1, a2, a3, a4⟩ := loop_keys _ _ _ _ _ _ hl
    unfold finish at h
    split_ifs at h with hn
    simp only [Option.some.injEq] at h
    subst h
    obtain ⟨b1, b2⟩ := finish_keys ps an1
    have hneed : ∀ q ∈ ps, q.needed = false := by
      intro q hq
      by_contra hne
      exact hn (List.any_eq_true.2 ⟨q, hq, by simpa using hne⟩)
    refine ⟨fun p hp => ?_, fun k hk => ?_⟩
    · by_cases hex : ∃ q ∈ ps, q.dest = p.dest
      · obtain ⟨q, hq, e⟩ := hex
        obtain ⟨r, h1, h2, h3⟩ := b1 q hq
        exact .inr ⟨r, a1 r h1, h2.trans e, hneed r h1, by rw [← e]; exact h3⟩
      · push Not at hex
        rw [b2 p.dest hex]
        rcases a2 p hp with h | h
        · exact absurd rfl (hex p h)
        · exact .inl h
    · rw [b2 k fun p hp => hk p (a1 p hp), a4 k hk]

theorem accepted_of {s : List Param} {d : Dict} (K : List String) (hd : ∀ k, (d k).isSome = true ↔ k ∈ K)
    (h1 : ∀ k ∈ K, k ∈ s.map (·.name)) (h2 : ∀ p ∈ s, p.default = none → p.name ∈ K) : Accepted s d :=
  ⟨fun k hk => by simpa using h1 k ((hd k).1 hk), fun p hp hn => (hd _).2 (h2 p hp hn)⟩

theorem dict_isSome (l : List (String × Option Val)) (k : String) : (dict l k).isSome = true ↔ k ∈ l.map (·.1) := by
  simp [dict, List.find?_isSome]

/-- the entries of a description -/
def Has (an : Dict) (ty : String) (D : List String) : Prop :=
  an "type" = some (txt ty) ∧ ∀ k, (an k).isSome = true ↔ k = "type" ∨ k ∈ D

theorem Has.main {an : Dict} {ty : String} {D : List String} (h : Has an ty D) (hD : "type" ∉ D) (o v : Option Val) (k : String) :
    (pop (withMain o v an) "type" k).isSome = true ↔ k ∈ "outfile" :: "verbose" :: D := by
  have := h.2 k
  by_cases c1 : k = "type"
  · subst c1; simp [pop, hD]
  · by_cases c2 : k = "verbose"
    · subst c2; simp [pop, withMain, Dict.set]
    · by_cases c3 : k = "outfile"
      · subst c3; simp [pop, withMain, Dict.set]
      · simp [pop, withMain, Dict.set, c1, c2, c3, this]

theorem Has.get {an : Dict} {ty : String} {D : List String} (h : Has an ty D) {k : String} (hk : k ∈ D) : ∃ w, an k = some w :=
  Option.isSome_iff_exists.1 ((h.2 k).2 (.inr hk))

theorem Has.absent {an : Dict} {ty : String} {D : List String} (h : Has an ty D) {k : String} (hk : k ∉ "type" :: D) : an k = none := by
  rw [← Option.not_isSome_iff_eq_none, h.2 k]
  simpa using hk

theorem bind_has {ty : String} {spec : List Tok} {tokens : List (List Char)} {an : Dict}
    (h : Directive.bind spec tokens (fun k => if k = "type" then some (txt ty) else none) = some an) (hD : "type" ∉ spec.map (·.dest)) :
    Has an ty (spec.map (·.dest)) := by
  obtain ⟨k1, k2⟩ := bind_keys h
  refine ⟨?_, fun k => ?_⟩
  · rw [k2 "type" (by simpa using hD)]
    simp
  · by_cases c : k ∈ spec.map (·.dest)
    · obtain ⟨p, hp, rfl⟩ := List.mem_map.1 c
      rcases k1 p hp with ⟨w, e⟩ | ⟨q, -, -, -, e⟩ <;> simp [e, c]
    · rw [k2 k (by simpa using c)]
      by_cases c2 : k = "type" <;> simp [c2, c]

variable {tokens : List (List Char)} {an : Dict} (o v o' v' : Option Val)

theorem plain_has {ty : String} {spec : List Tok} (hs : specs ty = some spec) (h1 : ty ≠ "tran") (h2 : ty ≠ "pz")
    (h : parseAnalysis ty tokens = .ok an) (hD : "type" ∉ spec.map (·.dest)) :
    Has an ty (spec.map (·.dest)) ∧
    ∀ p ∈ spec, (∃ v, an p.dest = some (some v)) ∨ ∃ q ∈ spec, q.dest = p.dest ∧ q.needed = false ∧ an p.dest = some q.default := by
  unfold parseAnalysis at h
  rw [hs] at h
  simp only at h
  split at h
  · cases h
  · rename_i a hb
    rw [if_neg h1, if_neg h2] at h
    cases h
    exact ⟨bind_has hb hD, (bind_keys hb).1⟩

/-- C226, `.op` -/
theorem C226_op (h : parseAnalysis "op" tokens = .ok an) : ∃ guess x0, an "guess" = some guess ∧ an "x0" = some x0 ∧
    Same (withMain o v an) (newOp guess x0 o' v') := by
  obtain ⟨hh, k1⟩ := plain_has rfl (by decide) (by decide) h (by decide)
  obtain ⟨g, hg⟩ : ∃ w, an "guess" = some (some w) := by
    rcases k1 ⟨some "guess", none, .bool, false, "guess", some (.bool true)⟩ (by simp [specOp]) with h | ⟨q, hq, hd, -, h⟩
    · exact h
    · simp [specOp] at hq
      rcases hq with rfl | rfl <;> simp at hd
      exact ⟨_, h⟩
  obtain ⟨x, hx⟩ := hh.get (k := "x0") (by decide)
  have ht := hh.1
  refine ⟨_, _, hg, hx, sigOp, pop (withMain o v an) "type", pop (newOp (some g) x o' v') "type", ?_, rfl,
    accepted_of _ (hh.main (by decide) o v) (by decide) (by simp [sigOp, opt]), accepted_of ["guess", "x0", "outfile", "verbose"] ?_ (by decide)
      (by simp [sigOp, opt]), ?_⟩
  · simp [target, withMain, Dict.set, ht, txt]
  · intro k
    by_cases c : k = "type"
    · subst c; simp [pop]
    · simp [pop, c, newOp, dict_isSome]
  · simp [sigOp, opt, value, pop, withMain, Dict.set, newOp, dict, hg, hx]

/-- C226, `.ac`: the directive has no starting point; that is `x0=None` of `new_ac` -/
theorem C226_ac (h : parseAnalysis "ac" tokens = .ok an) : ∃ start stop points sweep, an "start" = some start ∧ an "stop" = some stop ∧
    an "points" = some points ∧ an "sweep_type" = some sweep ∧ Same (withMain o v an) (newAc start stop points none sweep o' v') := by
  obtain ⟨hh, k1⟩ := plain_has rfl (by decide) (by decide) h (by decide)
  obtain ⟨x1, h1⟩ := hh.get (k := "start") (by decide)
  obtain ⟨x2, h2⟩ := hh.get (k := "stop") (by decide)
  obtain ⟨x3, h3⟩ := hh.get (k := "points") (by decide)
  obtain ⟨x4, h4⟩ := hh.get (k := "sweep_type") (by decide)
  have ht := hh.1
  refine ⟨_, _, _, _, h1, h2, h3, h4, sigAc, pop (withMain o v an) "type", pop (newAc x1 x2 x3 none x4 o' v') "type", ?_, rfl,
    accepted_of _ (hh.main (by decide) o v) (by decide) (by simp [sigAc, opt, req, specAc]),
    accepted_of ["start", "stop", "points", "sweep_type", "x0", "outfile", "verbose"] ?_ (by decide) (by simp [sigAc, opt, req]), ?_⟩
  · simp [target, withMain, Dict.set, ht, txt]
  · intro k
    by_cases c : k = "type"
    · subst c; simp [pop]
    · simp [pop, c, newAc, dict_isSome]
  · have a1 : an "x0" = none := hh.absent (by decide)
    have a2 : an "mna" = none := hh.absent (by decide)
    have a3 : an "AC" = none := hh.absent (by decide)
    have a4 : an "Nac" = none := hh.absent (by decide)
    have a5 : an "J" = none := hh.absent (by decide)
    simp [sigAc, opt, req, value, pop, withMain, Dict.set, newAc, dict, h1, h2, h3, h4, a1, a2, a3, a4, a5]

/-- C226, `.symbolic`: the directive has no substitutions -/
theorem C226_symbolic (h : parseAnalysis "symbolic" tokens = .ok an) : ∃ source ac r0s, an "source" = some source ∧ an "ac_enable" = some ac ∧
    an "r0s" = some r0s ∧ Same (withMain o v an) (newSymbolic source ac r0s none o' v') := by
  obtain ⟨hh, k1⟩ := plain_has rfl (by decide) (by decide) h (by decide)
  obtain ⟨x1, h1⟩ := hh.get (k := "source") (by decide)
  obtain ⟨x2, h2⟩ := hh.get (k := "ac_enable") (by decide)
  obtain ⟨x3, h3⟩ := hh.get (k := "r0s") (by decide)
  have ht := hh.1
  refine ⟨_, _, _, h1, h2, h3, sigSymbolic, pop (withMain o v an) "type", pop (newSymbolic x1 x2 x3 none o' v') "type", ?_, rfl,
    accepted_of _ (hh.main (by decide) o v) (by decide) (by simp [sigSymbolic, opt]),
    accepted_of ["source", "ac_enable", "r0s", "subs", "outfile", "verbose"] ?_ (by decide) (by simp [sigSymbolic, opt]), ?_⟩
  · simp [target, withMain, Dict.set, ht, txt]
  · intro k
    by_cases c : k = "type"
    · subst c; simp [pop]
    · simp [pop, c, newSymbolic, dict_isSome]
  · have a1 : an "subs" = none := hh.absent (by decide)
    simp [sigSymbolic, opt, value, pop, withMain, Dict.set, newSymbolic, dict, h1, h2, h3, a1]

/-- C226, `.pz`: the directive starts from the operating point -/
theorem C226_pz (h : parseAnalysis "pz" tokens = .ok an) : ∃ out inp shift, an "output_port" = some out ∧ an "input_source" = some inp ∧
    an "shift" = some shift ∧ Same (withMain o v an) (newPz inp out shift none o' (txt "op") v') := by
  have hh : Has an "pz" ["output_port", "input_source", "shift", "x0"] ∧ an "x0" = some (txt "op") := by
    unfold parseAnalysis at h
    simp only [specs] at h
    split at h
    · cases h
    · rename_i a hb
      rw [if_neg (by decide), if_pos trivial] at h
      cases h
      have hb' := bind_has hb (by decide)
      refine ⟨⟨by simp [Dict.set, hb'.1], fun k => ?_⟩, by simp [Dict.set]⟩
      have := hb'.2 k
      by_cases c : k = "x0"
      · subst c; simp [Dict.set]
      · simp [Dict.set, c, this, specPz]
  obtain ⟨hh, h0⟩ := hh
  obtain ⟨x1, h1⟩ := hh.get (k := "output_port") (by decide)
  obtain ⟨x2, h2⟩ := hh.get (k := "input_source") (by decide)
  obtain ⟨x3, h3⟩ := hh.get (k := "shift") (by decide)
  have ht := hh.1
  refine ⟨_, _, _, h1, h2, h3, sigPz, pop (withMain o v an) "type", pop (newPz x2 x1 x3 none o' (txt "op") v') "type", ?_, rfl,
    accepted_of _ (hh.main (by decide) o v) (by decide) (by simp [sigPz, opt]),
    accepted_of ["input_source", "x0", "output_port", "shift", "MNA", "outfile", "verbose"] ?_ (by decide) (by simp [sigPz, opt]), ?_⟩
  · simp [target, withMain, Dict.set, ht, txt]
  · intro k
    by_cases c : k = "type"
    · subst c; simp [pop]
    · simp [pop, c, newPz, dict_isSome]
  · have a1 : an "MNA" = none := hh.absent (by decide)
    simp [sigPz, opt, value, pop, withMain, Dict.set, newPz, dict, h0, h1, h2, h3, a1]

/-- C226, `.tran`: always with step control -/
theorem C226_tran (h : parseAnalysis "tran" tokens = .ok an) : ∃ tstart tstop tstep x0 method, an "tstart" = some tstart ∧
    an "tstop" = some tstop ∧ an "tstep" = some tstep ∧ an "x0" = some x0 ∧ an "method" = some method ∧
    Same (withMain o v an) (newTran tstart tstop tstep x0 method (some (.bool true)) o' v') := by
  have hh : Has an "tran" ["tstart", "tstop", "tstep", "x0", "method"] := by
    unfold parseAnalysis at h
    simp only [specs] at h
    split at h
    · cases h
    · rename_i a hb
      rw [if_pos trivial] at h
      have hb' := bind_has hb (by decide)
      have key : (∀ k, k ≠ "uic" → k ≠ "x0" → an k = a k) ∧ an "uic" = none ∧ (an "x0").isSome = true := by
        have hx : (a "x0").isSome = true := (hb'.2 _).2 (.inr (by decide))
        unfold tranFix at h
        simp only at h
        split at h
        · split_ifs at h <;> cases h <;> refine ⟨fun k c1 c2 => ?_, ?_, ?_⟩ <;> simp_all [Dict.set]
        · cases h
        · split_ifs at h <;> cases h <;> refine ⟨fun k c1 c2 => ?_, ?_, ?_⟩ <;> simp_all [Dict.set]
        · cases h
      obtain ⟨key, hu, hx⟩ := key
      refine ⟨by rw [key _ (by decide) (by decide)]; exact hb'.1, fun k => ?_⟩
      have := hb'.2 k
      by_cases c : k = "x0"
      · subst c; simp [hx]
      · by_cases c' : k = "uic"
        · subst c'; simp [hu]
        · rw [key k c' c, this]
          simp [specTran, c, c']
          tauto
  obtain ⟨x1, h1⟩ := hh.get (k := "tstart") (by decide)
  obtain ⟨x2, h2⟩ := hh.get (k := "tstop") (by decide)
  obtain ⟨x3, h3⟩ := hh.get (k := "tstep") (by decide)
  obtain ⟨x4, h4⟩ := hh.get (k := "x0") (by decide)
  obtain ⟨x5, h5⟩ := hh.get (k := "method") (by decide)
  have ht := hh.1
  refine ⟨_, _, _, _, _, h1, h2, h3, h4, h5, sigTran, pop (withMain o v an) "type",
    pop (newTran x1 x2 x3 x4 x5 (some (.bool true)) o' v') "type", ?_, rfl,
    accepted_of _ (hh.main (by decide) o v) (by decide) (by simp [sigTran, opt, req]),
    accepted_of ["tstart", "tstop", "tstep", "method", "use_step_control", "x0", "outfile", "verbose"] ?_ (by decide)
      (by simp [sigTran, opt, req]), ?_⟩
  · simp [target, withMain, Dict.set, ht, txt]
  · intro k
    by_cases c : k = "type"
    · subst c; simp [pop]
    · simp [pop, c, newTran, dict_isSome]
  · have a1 : an "use_step_control" = none := hh.absent (by decide)
    have a2 : an "mna" = none := hh.absent (by decide)
    have a3 : an "N" = none := hh.absent (by decide)
    have a4 : an "D" = none := hh.absent (by decide)
    have a5 : an "return_req_dict" = none := hh.absent (by decide)
    simp [sigTran, opt, req, value, pop, withMain, Dict.set, newTran, dict, h1, h2, h3, h4, h5, a1, a2, a3, a4, a5]

/-- C226, `.dc`: `new_dc` takes a number of points. It gives the step of the directive for `(stop - start)/step + 1` points, if the range
is not empty. -/
theorem C226_dc_partial (h : parseAnalysis "dc" tokens = .ok an) {start stop step : ℚ} (h1 : an "start" = some (num start))
    (h2 : an "stop" = some (num stop)) (h3 : an "step" = some (num step)) (hne : start ≠ stop) (hs : step ≠ 0) :
    ∃ source sweep api, an "source" = some source ∧ an "sweep_type" = some sweep ∧
      newDc start stop ((stop - start) / step + 1) source sweep (some (.bool true)) none o' v' = some api ∧ Same (withMain o v an) api := by
  obtain ⟨hh, k1⟩ := plain_has rfl (by decide) (by decide) h (by decide)
  obtain ⟨x4, h4⟩ := hh.get (k := "source") (by decide)
  obtain ⟨x5, h5⟩ := hh.get (k := "sweep_type") (by decide)
  have ht := hh.1
  have hsub : stop - start ≠ 0 := sub_ne_zero.2 hne.symm
  have hp : (stop - start) / step + 1 - 1 ≠ 0 := by
    rw [add_sub_cancel_right]; exact div_ne_zero hsub hs
  have hst : (stop - start) / ((stop - start) / step + 1 - 1) = step := by
    rw [add_sub_cancel_right]; field_simp
  refine ⟨_, _, _, h4, h5, by rw [newDc, if_neg hp], ?_⟩
  rw [hst]
  refine ⟨sigDc, pop (withMain o v an) "type", pop (dict _) "type", ?_, rfl,
    accepted_of _ (hh.main (by decide) o v) (by decide) (by simp [sigDc, opt, req, specDc]),
    accepted_of ["start", "stop", "step", "source", "x0", "outfile", "guess", "sweep_type", "verbose"] ?_ (by decide)
      (by simp [sigDc, opt, req]), ?_⟩
  · simp [target, withMain, Dict.set, ht, txt]
  · intro k
    by_cases c : k = "type"
    · subst c; simp [pop]
    · simp [pop, c, dict_isSome]
  · have a1 : an "x0" = none := hh.absent (by decide)
    have a2 : an "guess" = none := hh.absent (by decide)
    simp [sigDc, opt, req, value, pop, withMain, Dict.set, dict, h1, h2, h3, h4, h5, a1, a2]

/-- C226 refuted: a directive may ask for the single point `start = stop` with a step that is not zero; no call of `new_dc` starts the same
analysis, whatever its arguments are. -/
theorem C226_dc_refuted {a x : ℚ} (h0 : an "type" = some (txt "dc")) (h1 : an "start" = some (num a)) (h2 : an "stop" = some (num a))
    (h3 : an "step" = some (num x)) (hx : x ≠ 0) (start stop points : ℚ) (source sweep guess x0 : Option Val) (api : Dict)
    (h : newDc start stop points source sweep guess x0 o' v' = some api) : ¬ Same (withMain o v an) api := by
  rintro ⟨s, d, d', t1, t2, -, -, hv⟩
  unfold newDc at h
  split_ifs at h
  cases h
  simp [target, withMain, Dict.set, h0, txt] at t1
  simp [target, dict, txt] at t2
  obtain ⟨rfl, rfl⟩ := t1
  obtain ⟨-, rfl⟩ := t2
  have e1 := hv (req "start") (by simp [sigDc]) (by simp [req]) (by simp [req])
  have e2 := hv (req "stop") (by simp [sigDc]) (by simp [req]) (by simp [req])
  have e3 := hv (req "step") (by simp [sigDc]) (by simp [req]) (by simp [req])
  simp [value, req, pop, Dict.set, dict, h1, h2, h3, num] at e1 e2 e3
  apply hx
  rw [e3, ← e1, ← e2]; simp

/-- C226, `.pss`: `new_pss` has no step. Without one in the directive (the number of points is given always) both start the same analysis,
for both methods. -/
theorem C226_pss_partial (h : parseAnalysis "pss" tokens = .ok an) (hstep : an "step" = some none) {m : List Char}
    (hm : an "method" = some (some (.text m))) (hk : String.ofList (m.map Char.toLower) = "shooting" ∨ String.ofList (m.map Char.toLower) = "brute-force") :
    ∃ period points auto, an "period" = some period ∧ an "points" = some points ∧ an "autonomous" = some auto ∧
      Same (withMain o v an) (newPss period none points (some (.text m)) auto o' v') := by
  obtain ⟨hh, k1⟩ := plain_has rfl (by decide) (by decide) h (by decide)
  obtain ⟨x1, h1⟩ := hh.get (k := "period") (by decide)
  obtain ⟨x2, h2⟩ := hh.get (k := "points") (by decide)
  obtain ⟨x3, h3⟩ := hh.get (k := "autonomous") (by decide)
  have ht := hh.1
  have d1 : ∀ k, (pop (pop (withMain o v an) "type") "method" k).isSome = true ↔ k ∈ ["outfile", "verbose", "period", "points", "step", "autonomous"] := by
    intro k
    have := hh.main (by decide) o v k
    by_cases c : k = "method"
    · subst c; simp [pop]
    · rw [pop, if_neg c, this]
      simp [specPss, c]
  have d2 : ∀ k, (pop (pop (newPss x1 none x2 (some (.text m)) x3 o' v') "type") "method" k).isSome = true ↔
      k ∈ ["period", "points", "autonomous", "x0", "outfile", "verbose"] := by
    intro k
    by_cases c : k = "type"
    · subst c; simp [pop]
    · by_cases c' : k = "method"
      · subst c'; simp [pop]
      · simp [pop, c, c', newPss, dict_isSome]
  have tg : target (withMain o v an) = pssTarget (pop (withMain o v an) "type") := by
    simp [target, withMain, Dict.set, ht, txt]
  have tg' : target (newPss x1 none x2 (some (.text m)) x3 o' v') = pssTarget (pop (newPss x1 none x2 (some (.text m)) x3 o' v') "type") := by
    simp [target, newPss, dict, txt]
  have m1 : pop (withMain o v an) "type" "method" = some (some (.text m)) := by simp [pop, withMain, Dict.set, hm]
  have m2 : pop (newPss x1 none x2 (some (.text m)) x3 o' v') "type" "method" = some (some (.text m)) := by simp [pop, newPss, dict]
  have a0 : an "x0" = none := hh.absent (by decide)
  refine ⟨_, _, _, h1, h2, h3, ?_⟩
  rcases hk with hk | hk
  · refine ⟨sigShooting, _, _, by rw [tg, pssTarget, m1]; simp [hk], by rw [tg', pssTarget, m2]; simp [hk],
      accepted_of _ d1 (by decide) (by simp [sigShooting, opt, req]), accepted_of _ d2 (by decide) (by simp [sigShooting, opt, req]), ?_⟩
    have a1 : an "matrices" = none := hh.absent (by decide)
    have a2 : an "vector_norm" = none := hh.absent (by decide)
    simp [sigShooting, opt, req, value, pop, withMain, Dict.set, newPss, dict, h1, h2, h3, hstep, a0, a1, a2]
  · refine ⟨sigBf, _, _, by rw [tg, pssTarget, m1]; simp [hk], by rw [tg', pssTarget, m2]; simp [hk],
      accepted_of _ d1 (by decide) (by simp [sigBf, opt, req]), accepted_of _ d2 (by decide) (by simp [sigBf, opt, req]), ?_⟩
    have a1 : an "mna" = none := hh.absent (by decide)
    have a2 : an "vector_norm" = none := hh.absent (by decide)
    have a3 : an "Tf" = none := hh.absent (by decide)
    have a4 : an "D" = none := hh.absent (by decide)
    simp [sigBf, opt, req, value, pop, withMain, Dict.set, newPss, dict, h1, h2, h3, hstep, a0, a1, a2, a3, a4]

/-- C226 refuted: the step of a `.pss` directive cannot be given to `new_pss`. -/
theorem C226_step_refuted {x : ℚ} (hx : an "step" = some (num x)) (period x0 points method auto : Option Val) :
    ¬ Same (withMain o v an) (newPss period x0 points method auto o' v') := by
  rintro ⟨s, d, d', h1, h2, -, -, h⟩
  have t2 : target (newPss period x0 points method auto o' v') = pssTarget (pop (newPss period x0 points method auto o' v') "type") := by
    simp [target, newPss, dict, txt]
  rw [t2] at h2
  have hp : ∃ p ∈ s, p.name = "step" ∧ p.default = some none := by
    unfold pssTarget at h2
    split at h2
    · simp only at h2
      split_ifs at h2 <;> cases h2
      · exact ⟨_, by simp [sigShooting]; exact .inr (.inl rfl), rfl, rfl⟩
      · exact ⟨_, by simp [sigBf]; exact .inr (.inl rfl), rfl, rfl⟩
    · cases h2
  have hd' : d' "step" = none := by
    unfold pssTarget at h2
    split at h2
    · simp only at h2
      split_ifs at h2 <;> cases h2 <;> simp [pop, newPss, dict]
    · cases h2
  have hd : d "step" = some (num x) := by
    have hw : withMain o v an "step" = some (num x) := by simp [withMain, Dict.set, hx]
    unfold target at h1
    split at h1
    · simp only at h1
      split at h1 <;> try (cases h1; simp [pop, hw])
      · unfold pssTarget at h1
        split at h1
        · simp only at h1
          split_ifs at h1 <;> cases h1 <;> simp [pop, hw]
        · cases h1
      · cases h1
    · cases h1
  obtain ⟨p, hp, hn, hdef⟩ := hp
  have := h p hp (by rw [hn]; decide) (by rw [hn]; decide)
  simp [value, hn, hd, hd', hdef, num] at this

/-- C226 refuted: the interfaces have other defaults. A `.tran` directive without `uic` and every `.ac` directive give no `x0`, while
`new_tran` and `new_ac` ask for the operating point; `.pss` uses the shooting method and `new_pss` the brute-force one. -/
theorem C226_defaults_refuted :
    (∀ an, an "type" = some (txt "tran") → an "x0" = some none → ∀ o v o' v' tstart tstop tstep method usc,
      ¬ Same (withMain o v an) (newTran tstart tstop tstep (txt "op") method usc o' v')) ∧
    (∀ tokens an, parseAnalysis "ac" tokens = .ok an → ∀ o v o' v' start stop points sweep,
      ¬ Same (withMain o v an) (newAc start stop points (txt "op") sweep o' v')) ∧
    (∀ an, an "type" = some (txt "pss") → an "method" = some (txt "shooting") → ∀ o v o' v' period x0 points auto,
      ¬ Same (withMain o v an) (newPss period x0 points (txt "brute-force") auto o' v')) := by
  refine ⟨?_, ?_, ?_⟩
  · rintro an ht hx o v o' v' tstart tstop tstep method usc ⟨s, d, d', h1, h2, -, -, h⟩
    simp [target, withMain, Dict.set, ht, txt] at h1
    simp [target, newTran, dict, txt] at h2
    obtain ⟨rfl, rfl⟩ := h1
    obtain ⟨-, rfl⟩ := h2
    have := h (opt "x0" none) (by simp [sigTran]) (by simp [opt]) (by simp [opt])
    simp [value, opt, pop, Dict.set, hx, dict] at this
  · rintro tokens an hp o v o' v' start stop points sweep ⟨s, d, d', h1, h2, -, -, h⟩
    obtain ⟨hh, -⟩ := plain_has rfl (by decide) (by decide) hp (by decide)
    have ht := hh.1
    have hx : an "x0" = none := hh.absent (by decide)
    simp [target, withMain, Dict.set, ht, txt] at h1
    simp [target, newAc, dict, txt] at h2
    obtain ⟨rfl, rfl⟩ := h1
    obtain ⟨-, rfl⟩ := h2
    have := h (opt "x0" none) (by simp [sigAc]) (by simp [opt]) (by simp [opt])
    simp [value, opt, pop, Dict.set, hx, dict] at this
  · rintro an ht hm o v o' v' period x0 points auto ⟨s, d, d', h1, h2, -, -, -⟩
    have e1 : s = sigShooting := by
      have : target (withMain o v an) = some (sigShooting, pop (pop (withMain o v an) "type") "method") := by
        simp [target, withMain, Dict.set, ht, hm, txt, pssTarget, pop]
      rw [this] at h1
      exact (congrArg Prod.fst (Option.some.inj h1)).symm
    have e2 : s = sigBf := by
      have : target (newPss period x0 points (txt "brute-force") auto o' v') =
          some (sigBf, pop (pop (newPss period x0 points (txt "brute-force") auto o' v') "type") "method") := by
        simp [target, newPss, dict, txt, pssTarget, pop]
      rw [this] at h2
      exact (congrArg Prod.fst (Option.some.inj h2)).symm
    rw [e1] at e2
    have := congrArg List.length e2
    simp [sigShooting, sigBf] at this

/-! ### Examples: lines that are accepted, with the values of the theorems -/

/-- an entry of the description made for a line -/
def entry (ty : String) (toks : List String) (k : String) : Option (Option Val) :=
  match parseAnalysis ty (toks.map String.toList) with
  | .ok an => an k
  | _ => none

example : entry "ac" ["lin", "nsteps=10", "1", "1k"] "points" = some (num 10) ∧ entry "ac" ["lin", "nsteps=10", "1", "1k"] "stop" = some (num 1000) ∧
    entry "op" ["guess=0"] "guess" = some (some (.bool false)) ∧ entry "tran" ["1m", "1", "uic=1"] "x0" = some (txt "op") ∧
    entry "symbolic" ["tf=v1"] "source" = some (txt "v1") ∧ entry "pz" ["n1", "v1"] "x0" = some (txt "op") := by decide +kernel

example : entry "dc" ["v1", "0", "10", "2"] "start" = some (num 0) ∧ entry "dc" ["v1", "0", "10", "2"] "stop" = some (num 10) ∧
    entry "dc" ["v1", "0", "10", "2"] "step" = some (num 2) ∧ entry "dc" ["v1", "5", "5", "1"] "step" = some (num 1) := by decide +kernel

example : entry "pss" ["1m", "points=100"] "step" = some none ∧ entry "pss" ["1m", "points=100"] "method" = some (txt "shooting") ∧
    entry "pss" ["1m", "points=100", "step=1u"] "step" = some (num (1 / 1000000)) := by decide +kernel

example : entry "tran" ["1m", "1"] "x0" = some none ∧ entry "tran" ["1m", "1"] "type" = some (txt "tran") ∧
    entry "pss" ["1m", "points=100"] "type" = some (txt "pss") := by decide +kernel

end Verif.NewAn
