import Verif.Model.PrintAn
import Verif.Props.Parse
import Verif.Props.Directive
import Verif.Props.Results

/-!
Property C164: a printed analysis reads back as the analysis.
-/

namespace Verif.PrintAn
open Verif.Small Verif.Directive Verif.Netlist Verif.Parse

/-! ### Letters -/

def lower (w : Line) : Line := w.map Char.toLower

theorem low_tab : ∀ n < 128, ((Char.ofNat n).toLower.isWhitespace = (Char.ofNat n).isWhitespace) ∧
    ((Char.ofNat n).toLower = '=' ↔ Char.ofNat n = '=') ∧ ((Char.ofNat n).toLower = '*' ↔ Char.ofNat n = '*') := by
  decide +kernel

theorem low_char (c : Char) : (c.toLower.isWhitespace = c.isWhitespace) ∧ (c.toLower = '=' ↔ c = '=') ∧
    (c.toLower = '*' ↔ c = '*') := by
  by_cases h : c.toNat < 128
  · have := low_tab c.toNat h
    rwa [Char.ofNat_toNat] at this
  · rw [(Results.low_high c (by omega)).1]
    simp

theorem lower_word {w : Line} (h : IsWord w) : IsWord (lower w) := by
  refine ⟨by simpa [lower] using h.1, fun c hc => ?_⟩
  obtain ⟨a, ha, rfl⟩ := List.mem_map.1 hc
  rw [(low_char a).1]
  exact h.2 a ha

theorem lower_noeq {w : Line} (h : '=' ∉ w) : '=' ∉ lower w := by
  intro hc
  obtain ⟨a, ha, e⟩ := List.mem_map.1 hc
  rw [((low_char a).2.1).1 e] at ha
  exact h ha

theorem lower_head {w : Line} (h : w.head? ≠ some '*') : (lower w).head? ≠ some '*' := by
  cases w with
  | nil => simp [lower]
  | cons a w =>
    simp only [lower, List.map_cons, List.head?_cons, ne_eq, Option.some.injEq] at h ⊢
    exact fun e => h ((low_char a).2.2.1 e)

/-- the text of a number: a word that is read, in lower case, as the number -/
structure Reads (w : Line) (x : ℚ) : Prop where
  word : IsWord w
  noeq : '=' ∉ w
  reads : Units.convertUnits (lower w) = .ok x

/-- a name: a word without equality sign that does not begin a comment -/
structure Name (w : Line) : Prop where
  word : IsWord w
  noeq : '=' ∉ w
  star : w.head? ≠ some '*'

theorem entry_word (k : String) (hk : IsWord k.toList) {w : Line} (hw : IsWord w) : IsWord (entry k w) := by
  refine ⟨by simp [entry], fun c hc => ?_⟩
  rcases List.mem_append.1 hc with hc | hc
  · exact hk.2 c hc
  · rcases List.mem_cons.1 hc with rfl | hc
    · decide
    · exact hw.2 c hc

theorem lower_entry (k : String) (hk : lower k.toList = k.toList) (w : Line) :
    lower (entry k w) = entry k (lower w) := by
  simp only [entry, lower, List.map_append, List.map_cons]
  rw [show Char.toLower '=' = '=' from rfl]
  unfold lower at hk
  rw [hk]

/-- the words read from a printed line -/
theorem words_joined {ws : List Line} (h : ∀ w ∈ ws, IsWord w) :
    (words (joined ws)).map (List.map Char.toLower) = ws.map lower := by
  unfold joined
  rw [C60_words ws h]
  rfl

/-- label and value of a printed entry -/
theorem split_entry (k : String) (hk : ∀ c ∈ k.toList, c.isWhitespace = false) (he : '=' ∉ k.toList) {w : Line}
    (hw : IsWord w) (hn : '=' ∉ w) : Directive.split (entry k w) = (some k, w) := by
  have h := split_param k.toList w he hn (strip_word _ fun c hc => by
    rcases List.mem_append.1 hc with hc | hc
    · exact hk c hc
    · rcases List.mem_cons.1 hc with rfl | hc
      · decide
      · exact hw.2 c hc)
  rw [String.ofList_toList] at h
  exact h

theorem split_name {w : Line} (hw : IsWord w) (hn : '=' ∉ w) : Directive.split w = (none, w) := by
  unfold Directive.split isParam
  rw [strip_word w hw.2, List.count_eq_zero.2 hn]
  rfl

theorem num_entry {w : Line} {x : ℚ} (h : Reads w x) : convert (lower w) .float = some (.num x) := by
  simp only [convert]
  rw [h.reads]

/-- labels of parameters: lower case words without equality sign -/
def Label (k : String) : Prop := (k.toList.all fun c => !c.isWhitespace && c != '=') = true ∧ k.toList ≠ [] ∧
  lower k.toList = k.toList ∧ k.toList.head? ≠ some '*'

instance (k : String) : Decidable (Label k) := by unfold Label; infer_instance

theorem Label.props {k : String} (h : Label k) : IsWord k.toList ∧ '=' ∉ k.toList := by
  have h1 := List.all_eq_true.1 h.1
  refine ⟨⟨h.2.1, fun c hc => ?_⟩, fun hc => ?_⟩
  · have := h1 c hc
    simp only [Bool.and_eq_true, Bool.not_eq_true'] at this
    exact this.1
  · have := h1 _ hc
    simp at this

theorem entry_head {k : String} (h : Label k) (w : Line) : (entry k w).head? ≠ some '*' := by
  have h1 := h.2.2.2
  have h2 := h.2.1
  cases hk : k.toList with
  | nil => exact absurd hk h2
  | cons a r =>
    rw [hk] at h1
    simpa [entry, hk] using h1

/-- what one printed entry does -/
theorem loop_entry {ps : List Tok} {i : Nat} {k : String} (hk : Label k) {w : Line} (hw : IsWord w) (hn : '=' ∉ w)
    {rest : List Line} {an : Dict} {t : Tok} {v : Val} (hf : ps.find? (fits i (some k)) = some t)
    (hv : convert (lower w) t.type = some v) :
    loop ps i (lower (entry k w) :: rest) an = loop (ps.erase t) (i + 1) rest (an.set t.dest (some v)) := by
  rw [lower_entry k hk.2.2.1 w]
  obtain ⟨h1, h2⟩ := hk.props
  have hs := split_entry k h1.2 h2 (lower_word hw) (lower_noeq hn)
  simp only [loop, if_neg (entry_head hk (lower w)), hs, hf, hv]

theorem loop_name {ps : List Tok} {i : Nat} {w : Line} (h : Name w)
    {rest : List Line} {an : Dict} {t : Tok} {v : Val} (hf : ps.find? (fits i none) = some t)
    (hv : convert (lower w) t.type = some v) :
    loop ps i (lower w :: rest) an = loop (ps.erase t) (i + 1) rest (an.set t.dest (some v)) := by
  simp only [loop, if_neg (lower_head h.star), split_name (lower_word h.word) (lower_noeq h.noeq), hf, hv]

/-! ### C164 -/

/-- C164: the line printed for a DC sweep reads back as the description: source, start, stop, step, and the type of the
sweep up to letter case. -/
theorem C164_dc_partial (g : ℚ → Line) (str : Option Val → Line) (hs : ∀ s, str (some (.text s)) = s) (an : An)
    (src ty : Line) (a b c : ℚ) (ht : an.get "type" = some (txt "dc")) (h1 : an.get "source" = some (some (.text src)))
    (h2 : an.get "start" = some (some (.num a))) (h3 : an.get "stop" = some (some (.num b)))
    (h4 : an.get "step" = some (some (.num c))) (h5 : an.get "sweep_type" = some (some (.text ty)))
    (hsrc : Name src) (hty : Name ty) (ha : Reads (g a) a) (hb : Reads (g b) b) (hc : Reads (g c) c) :
    ∃ l d, printAnalysis g str an = .line l ∧ readLine l = .ok d ∧ d "type" = an.get "type" ∧
      d "source" = some (some (.text (lower src))) ∧ d "start" = an.get "start" ∧ d "stop" = an.get "stop" ∧
      d "step" = an.get "step" ∧ d "sweep_type" = some (some (.text (lower ty))) := by
  have hw : ∀ w ∈ [".dc".toList, src, entry "start" (g a), entry "stop" (g b), entry "step" (g c), entry "type" ty],
      IsWord w := by
    have L : ∀ k : String, Label k → ∀ w : Line, IsWord w → IsWord (entry k w) := fun k hk w hw =>
      entry_word k hk.props.1 hw
    intro w hw
    simp only [List.mem_cons, List.not_mem_nil, or_false] at hw
    rcases hw with rfl | rfl | rfl | rfl | rfl | rfl
    · unfold IsWord; decide +kernel
    · exact hsrc.word
    · exact L _ (by decide +kernel) _ ha.word
    · exact L _ (by decide +kernel) _ hb.word
    · exact L _ (by decide +kernel) _ hc.word
    · exact L _ (by decide +kernel) _ hty.word
  refine ⟨joined [".dc".toList, src, entry "start" (g a), entry "stop" (g b), entry "step" (g c), entry "type" ty], ?_⟩
  have hp : printAnalysis g str an = .line (joined [".dc".toList, src, entry "start" (g a), entry "stop" (g b),
      entry "step" (g c), entry "type" ty]) := by
    unfold printAnalysis
    rw [ht]
    simp only
    rw [if_neg (by decide +kernel), if_pos trivial]
    simp only [printDc, An.shown, An.num, h1, h2, h3, h4, h5, Option.map_some, hs, ofWords]
  unfold readLine
  rw [words_joined hw]
  simp only [List.map_cons, List.map_nil]
  rw [show String.ofList ((lower ".dc".toList).filter fun c => c ≠ '.') = "dc" by decide +kernel]
  unfold parseAnalysis
  simp only [specs]
  unfold Directive.bind
  rw [specDc, loop_name hsrc (t := ⟨some "source", some 0, .str, true, "source", none⟩) (v := .text (lower src))
    (by decide +kernel) rfl,
    loop_entry (by decide +kernel) ha.word ha.noeq (t := ⟨some "start", some 1, .float, true, "start", none⟩)
      (v := .num a) (by decide +kernel) (num_entry ha),
    loop_entry (by decide +kernel) hb.word hb.noeq (t := ⟨some "stop", some 2, .float, true, "stop", none⟩)
      (v := .num b) (by decide +kernel) (num_entry hb),
    loop_entry (by decide +kernel) hc.word hc.noeq (t := ⟨some "step", some 3, .float, true, "step", none⟩)
      (v := .num c) (by decide +kernel) (num_entry hc),
    loop_entry (by decide +kernel) hty.word hty.noeq
      (t := ⟨some "type", none, .str, false, "sweep_type", txt "LIN"⟩)
      (v := .text (lower ty)) (by decide +kernel) rfl]
  rw [ht, h2, h3, h4]
  exact ⟨_, hp, rfl, rfl, rfl, rfl, rfl, rfl, rfl⟩

/-- C164: the line printed for a transient analysis reads back as the same times and method, but always with no initial
state. -/
theorem C164_tran_partial (g : ℚ → Line) (str : Option Val → Line) (an : An) (m : Option Line) (a b c : ℚ)
    (ht : an.get "type" = some (txt "tran")) (h1 : an.get "tstep" = some (some (.num a)))
    (h2 : an.get "tstop" = some (some (.num b))) (h3 : an.get "tstart" = some (some (.num c)))
    (h4 : an.get "method" = some (m.map .text)) (hm : ∀ w ∈ m, Name w ∧ lower w = w)
    (ha : Reads (str (some (.num a))) a) (hb : Reads (str (some (.num b))) b) (hc : Reads (str (some (.num c))) c) :
    ∃ l d, printAnalysis g str an = .line l ∧ readLine l = .ok d ∧ d "type" = an.get "type" ∧
      d "tstep" = an.get "tstep" ∧ d "tstop" = an.get "tstop" ∧ d "tstart" = an.get "tstart" ∧
      d "method" = an.get "method" ∧ d "x0" = some none := by
  have L : ∀ k : String, Label k → ∀ w : Line, IsWord w → IsWord (entry k w) := fun k hk w hw =>
    entry_word k hk.props.1 hw
  have hw0 : ∀ w ∈ [".tran".toList, entry "tstep" (str (some (.num a))), entry "tstop" (str (some (.num b))),
      entry "tstart" (str (some (.num c)))], IsWord w := by
    intro w hw
    simp only [List.mem_cons, List.not_mem_nil, or_false] at hw
    rcases hw with rfl | rfl | rfl | rfl
    · unfold IsWord; decide +kernel
    · exact L _ (by decide +kernel) _ ha.word
    · exact L _ (by decide +kernel) _ hb.word
    · exact L _ (by decide +kernel) _ hc.word
  have hp : printAnalysis g str an = printTran str an := by
    unfold printAnalysis
    rw [ht]
    simp only
    rw [if_neg (by decide +kernel), if_neg (by decide +kernel), if_pos trivial]
  rw [hp, ht, h1, h2, h3, h4]
  have hd : String.ofList ((lower ".tran".toList).filter fun c => c ≠ '.') = "tran" := by decide +kernel
  cases m with
  | none =>
    refine ⟨joined [".tran".toList, entry "tstep" (str (some (.num a))), entry "tstop" (str (some (.num b))),
      entry "tstart" (str (some (.num c)))], ?_⟩
    unfold readLine
    rw [words_joined hw0]
    simp only [List.map_cons, List.map_nil]
    rw [hd]
    unfold parseAnalysis
    simp only [specs]
    unfold Directive.bind
    rw [specTran, loop_entry (by decide +kernel) ha.word ha.noeq
        (t := ⟨some "tstep", some 0, .float, true, "tstep", none⟩) (v := .num a) (by decide +kernel) (num_entry ha),
      loop_entry (by decide +kernel) hb.word hb.noeq (t := ⟨some "tstop", some 1, .float, true, "tstop", none⟩)
        (v := .num b) (by decide +kernel) (num_entry hb),
      loop_entry (by decide +kernel) hc.word hc.noeq (t := ⟨some "tstart", none, .float, false, "tstart", num 0⟩)
        (v := .num c) (by decide +kernel) (num_entry hc)]
    refine ⟨_, ?_, rfl, rfl, rfl, rfl, rfl, rfl, rfl⟩
    simp only [printTran, An.shown, h1, h2, h3, h4, Option.map_some, Option.map_none, ofWords]
  | some w =>
    obtain ⟨hn, hl⟩ := hm w rfl
    have hw : ∀ w' ∈ [".tran".toList, entry "tstep" (str (some (.num a))), entry "tstop" (str (some (.num b))),
        entry "tstart" (str (some (.num c))), entry "method" w], IsWord w' := by
      intro w' hw'
      simp only [List.mem_cons, List.not_mem_nil, or_false] at hw'
      rcases hw' with rfl | rfl | rfl | rfl | rfl
      · unfold IsWord; decide +kernel
      · exact L _ (by decide +kernel) _ ha.word
      · exact L _ (by decide +kernel) _ hb.word
      · exact L _ (by decide +kernel) _ hc.word
      · exact L _ (by decide +kernel) _ hn.word
    refine ⟨joined [".tran".toList, entry "tstep" (str (some (.num a))), entry "tstop" (str (some (.num b))),
      entry "tstart" (str (some (.num c))), entry "method" w], ?_⟩
    unfold readLine
    rw [words_joined hw]
    simp only [List.map_cons, List.map_nil]
    rw [hd]
    unfold parseAnalysis
    simp only [specs]
    unfold Directive.bind
    rw [specTran, loop_entry (by decide +kernel) ha.word ha.noeq
        (t := ⟨some "tstep", some 0, .float, true, "tstep", none⟩) (v := .num a) (by decide +kernel) (num_entry ha),
      loop_entry (by decide +kernel) hb.word hb.noeq (t := ⟨some "tstop", some 1, .float, true, "tstop", none⟩)
        (v := .num b) (by decide +kernel) (num_entry hb),
      loop_entry (by decide +kernel) hc.word hc.noeq (t := ⟨some "tstart", none, .float, false, "tstart", num 0⟩)
        (v := .num c) (by decide +kernel) (num_entry hc),
      loop_entry (by decide +kernel) hn.word hn.noeq (t := ⟨some "method", none, .str, false, "method", none⟩)
        (v := .text w) (by decide +kernel) (by rw [hl]; rfl)]
    refine ⟨_, ?_, rfl, rfl, rfl, rfl, rfl, rfl, rfl⟩
    simp only [printTran, An.shown, h1, h2, h3, h4, Option.map_some, ofWords]

/-- C164, disagreement: a transient analysis that starts from the operating point reads back as one that does not. -/
theorem C164_tran_refuted (g : ℚ → Line) (str : Option Val → Line) (a b : ℚ) (ha : Reads (str (some (.num a))) a)
    (hb : Reads (str (some (.num b))) b) :
    ∃ an : An, ∃ l d, printAnalysis g str an = .line l ∧ readLine l = .ok d ∧ an.get "x0" = some (txt "op") ∧
      d "x0" = some none := by
  obtain ⟨l, d, h1, h2, -, -, -, -, -, h3⟩ := C164_tran_partial g str
    [("type", txt "tran"), ("tstep", some (.num a)), ("tstop", some (.num b)), ("tstart", some (.num a)),
      ("method", none), ("x0", txt "op")] none a b a rfl rfl rfl rfl rfl (by simp) ha hb ha
  exact ⟨_, l, d, h1, h2, rfl, h3⟩

/-- C164, disagreement: the line printed for an operating point, whose description always has an entry x0, is refused. -/
theorem C164_op_refuted (g : ℚ → Line) (str : Option Val → Line) (an : An) (ht : an.get "type" = some (txt "op"))
    (v : Option Val) (hx : ("x0", v) ∈ an)
    (hk : ∀ p ∈ an, p.1 ≠ "type" → p.1 ≠ "outfile" → p.1 ≠ "verbose" → Label p.1 ∧ IsWord (str p.2) ∧ '=' ∉ str p.2) :
    ∃ l, printAnalysis g str an = .line l ∧ readLine l = .parseError := by
  set keep := an.filter fun p => p.1 ≠ "type" ∧ p.1 ≠ "outfile" ∧ p.1 ≠ "verbose" with hkeep
  have hkp : ∀ p ∈ keep, Label p.1 ∧ IsWord (str p.2) ∧ '=' ∉ str p.2 := by
    intro p hp
    obtain ⟨h1, h2⟩ := List.mem_filter.1 hp
    simp only [ne_eq, decide_eq_true_eq] at h2
    exact hk p h1 h2.1 h2.2.1 h2.2.2
  have hx' : ("x0", v) ∈ keep := List.mem_filter.2 ⟨hx, by simp⟩
  obtain ⟨pre, post, hpp⟩ := List.append_of_mem hx'
  have hw : ∀ w ∈ ".op".toList :: keep.map (fun p => entry p.1 (str p.2)), IsWord w := by
    intro w hw
    rcases List.mem_cons.1 hw with rfl | hw
    · unfold IsWord; decide +kernel
    · obtain ⟨p, hp, rfl⟩ := List.mem_map.1 hw
      obtain ⟨h1, h2, -⟩ := hkp p hp
      exact entry_word _ h1.props.1 h2
  refine ⟨joined (".op".toList :: keep.map fun p => entry p.1 (str p.2)), ?_, ?_⟩
  · unfold printAnalysis
    rw [ht]
    simp only
    rw [if_pos trivial]
    rfl
  · unfold readLine
    rw [words_joined hw]
    simp only [List.map_cons]
    rw [show String.ofList ((lower ".op".toList).filter fun c => c ≠ '.') = "op" by decide +kernel]
    have hg := C36_specs_good.1 "op" specOp rfl
    obtain ⟨hl, hvw, hvn⟩ := hkp _ hx'
    have hlow : (keep.map fun p => entry p.1 (str p.2)).map lower =
        keep.map fun p => entry p.1 (lower (str p.2)) := by
      rw [List.map_map]
      apply List.map_congr_left
      intro p hp
      exact lower_entry p.1 (hkp p hp).1.2.2.1 _
    have hb : Directive.bind specOp ((keep.map fun p => entry p.1 (str p.2)).map lower)
        (fun k => if k = "type" then some (txt "op") else none) = none := by
      rw [hlow, hpp, List.map_append, List.map_cons]
      have := C36_unknown_label specOp hg "x0".toList (lower (str v)) (by decide) (lower_noeq hvn)
        (strip_word _ fun c hc => by
          have := (entry_word "x0" hl.props.1 (lower_word hvw)).2 c hc
          exact this)
        (by decide +kernel) (pre.map fun p => entry p.1 (lower (str p.2)))
        (post.map fun p => entry p.1 (lower (str p.2))) (by
          intro t ht
          have : ∀ p ∈ keep, (entry p.1 (lower (str p.2))).head? ≠ some '*' := fun p hp => entry_head (hkp p hp).1 _
          rw [hpp] at this
          rcases List.mem_append.1 ht with ht | ht
          · obtain ⟨p, hp, rfl⟩ := List.mem_map.1 ht
            exact this p (List.mem_append_left _ hp)
          · rcases List.mem_cons.1 ht with rfl | ht
            · exact this ("x0", v) (by simp)
            · obtain ⟨p, hp, rfl⟩ := List.mem_map.1 ht
              exact this p (List.mem_append_right _ (List.mem_cons_of_mem _ hp)))
        (fun k => if k = "type" then some (txt "op") else none)
      exact this
    unfold parseAnalysis
    simp only [specs]
    rw [hb]

/-- C164, disagreement: nothing is printed for the other analyses of a netlist, and the line printed for a description of
type `shooting`, which no directive gives, is refused. -/
theorem C164_silent_refuted (g : ℚ → Line) (str : Option Val → Line) (an : An) (ty : String)
    (ht : an.get "type" = some (txt ty)) :
    (ty ∈ ["ac", "pss", "pz", "symbolic"] → printAnalysis g str an = .nothing) ∧
    (ty = "shooting" → (∀ v, IsWord (str v)) → ∀ l, printAnalysis g str an = .line l → readLine l = .parseError) := by
  constructor
  · intro h
    simp only [List.mem_cons, List.not_mem_nil, or_false] at h
    unfold printAnalysis
    rw [ht]
    rcases h with rfl | rfl | rfl | rfl
    all_goals
      simp only
      rw [if_neg (by decide +kernel), if_neg (by decide +kernel), if_neg (by decide +kernel), if_neg (by decide +kernel)]
  · rintro rfl hw l hl
    unfold printAnalysis at hl
    rw [ht] at hl
    simp only at hl
    rw [if_neg (by decide +kernel), if_neg (by decide +kernel), if_neg (by decide +kernel), if_pos trivial] at hl
    unfold printShooting ofWords at hl
    split at hl
    · rename_i ws hws
      split at hws
      · rename_i a m p s t h1 h2 h3 h4 h5
        simp only [Option.some.injEq] at hws
        injection hl with hl
        have L : ∀ k : String, Label k → ∀ v, IsWord (entry k (str v)) := fun k hk v => entry_word k hk.props.1 (hw v)
        have sh : ∀ k w, An.shown an str k = some w → IsWord w := by
          intro k w h
          unfold An.shown at h
          cases hg : an.get k with
          | none => rw [hg] at h; cases h
          | some v => rw [hg] at h; cases h; exact hw v
        have this : ∀ w ∈ ws, IsWord w := by
          rw [← hws]
          intro w hwm
          simp only [List.mem_append, List.mem_cons, List.not_mem_nil, or_false] at hwm
          rcases hwm with (((rfl | rfl | rfl) | hwm) | hwm) | rfl | rfl
          · unfold IsWord; decide +kernel
          · exact entry_word _ (show Label "period" by decide +kernel).props.1 (sh _ _ h1)
          · exact entry_word _ (show Label "method" by decide +kernel).props.1 (sh _ _ h2)
          · split_ifs at hwm
            · cases hwm
            · rw [List.mem_singleton.1 hwm]; exact L _ (by decide +kernel) _
          · split_ifs at hwm
            · cases hwm
            · rw [List.mem_singleton.1 hwm]; exact L _ (by decide +kernel) _
          · unfold IsWord; decide +kernel
          · exact sh _ _ h5
        subst hl
        unfold readLine
        rw [words_joined this, ← hws]
        simp only [List.cons_append, List.map_cons]
        rw [show String.ofList ((lower ".shooting".toList).filter fun c => c ≠ '.') = "shooting" by decide +kernel]
        rfl
      · cases hws
    · cases hl

/-- C164: the line printed for a shooting analysis: the number of points and the step are shown exactly when they are given. -/
theorem C164_shooting (g : ℚ → Line) (str : Option Val → Line) (an : An) (ht : an.get "type" = some (txt "shooting"))
    (T M A : Option Val) (p s : Option Val) (h1 : an.get "period" = some T) (h2 : an.get "method" = some M)
    (h3 : an.get "autonomous" = some A) (h4 : an.get "points" = some p) (h5 : an.get "step" = some s) :
    printAnalysis g str an = .line (joined ([".shooting".toList, entry "period" (str T), entry "method" (str M)] ++
      (match p with | some v => [entry "points" (str (some v))] | none => []) ++
      (match s with | some v => [entry "step" (str (some v))] | none => []) ++ ["autonomous=".toList, str A])) := by
  unfold printAnalysis
  rw [ht]
  simp only
  rw [if_neg (by decide +kernel), if_neg (by decide +kernel), if_neg (by decide +kernel), if_pos trivial]
  simp only [printShooting, An.shown, h1, h2, h3, h4, h5, Option.map_some, ofWords]
  cases p <;> cases s <;> simp

/-! ### Examples -/

/-- a printer of the numbers 0, 1 and 5, of texts and booleans -/
def exStr : Option Val → Line
  | none => "None".toList
  | some (.num x) => if x = 0 then "0".toList else if x = 1 then "1.0".toList else "5e0".toList
  | some (.text s) => s
  | some (.bool b) => if b then "True".toList else "False".toList

theorem exStr_reads : Reads (exStr (some (.num 0))) 0 ∧ Reads (exStr (some (.num 1))) 1 ∧
    Reads (exStr (some (.num 5))) 5 := by
  refine ⟨⟨?_, ?_, ?_⟩, ⟨?_, ?_, ?_⟩, ⟨?_, ?_, ?_⟩⟩
  all_goals first | (unfold IsWord; decide +kernel) | decide +kernel

def isLine : Printed → Line → Bool
  | .line l, l' => l == l'
  | _, _ => false

example : isLine (printAnalysis (fun x => exStr (some (.num x))) exStr
    [("type", txt "dc"), ("source", txt "V1"), ("start", num 0), ("stop", num 5), ("step", num 1),
      ("sweep_type", txt "LIN"), ("outfile", txt "stdout"), ("verbose", num 3)])
    ".dc V1 start=0 stop=5e0 step=1.0 type=LIN".toList = true := by decide +kernel

example : ∃ l d, printAnalysis (fun x => exStr (some (.num x))) exStr
    [("type", txt "dc"), ("source", txt "V1"), ("start", num 0), ("stop", num 5), ("step", num 1),
      ("sweep_type", txt "LIN")] = .line l ∧ readLine l = .ok d ∧ d "stop" = some (num 5) ∧
      d "source" = some (some (.text (lower "V1".toList))) := by
  obtain ⟨l, d, h1, h2, -, h3, -, h4, -⟩ := C164_dc_partial (fun x => exStr (some (.num x))) exStr (fun _ => rfl)
    [("type", txt "dc"), ("source", txt "V1"), ("start", num 0), ("stop", num 5), ("step", num 1),
      ("sweep_type", txt "LIN")] "V1".toList "LIN".toList 0 5 1 rfl rfl rfl rfl rfl rfl
    ⟨by unfold IsWord; decide +kernel, by decide +kernel, by decide +kernel⟩
    ⟨by unfold IsWord; decide +kernel, by decide +kernel, by decide +kernel⟩ exStr_reads.1 exStr_reads.2.2
    exStr_reads.2.1
  exact ⟨l, d, h1, h2, h4, h3⟩

/-- a shooting analysis with a step -/
example : isLine (printAnalysis (fun x => exStr (some (.num x))) exStr
    [("type", txt "shooting"), ("period", num 5), ("method", none), ("points", none), ("step", num 1), ("autonomous", some (.bool false))])
    ".shooting period=5e0 method=None step=1.0 autonomous= False".toList = true := by decide +kernel

/-- the operating point of a netlist -/
example : ∃ l, printAnalysis (fun x => exStr (some (.num x))) exStr
    [("type", txt "op"), ("guess", some (.bool true)), ("x0", none), ("outfile", txt "stdout"), ("verbose", num 5)] =
      .line l ∧ readLine l = .parseError := by
  apply C164_op_refuted _ _ _ rfl none (by simp)
  intro p hp h1 h2 h3
  simp only [List.mem_cons, List.not_mem_nil, or_false] at hp
  rcases hp with rfl | rfl | rfl | rfl | rfl
  · exact absurd rfl h1
  · exact ⟨by decide +kernel, by unfold IsWord; decide +kernel, by decide +kernel⟩
  · exact ⟨by decide +kernel, by unfold IsWord; decide +kernel, by decide +kernel⟩
  · exact absurd rfl h2
  · exact absurd rfl h3

end Verif.PrintAn
