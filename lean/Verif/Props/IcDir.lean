import Verif.Model.IcDir
import Verif.Props.Ic
import Verif.Props.Small

/-!
C209: `.ic` directives.
-/

namespace Verif.IcDir
open Verif.Small

/-! ### One directive -/

/-- the label of a request as it stands in a netlist, whose lines are in small letters -/
def low : Ic.Req → Text
  | .v n _ => 'v' :: '(' :: (n ++ [')'])
  | .i n _ => 'i' :: '(' :: (n ++ [')'])

theorem low_ok (r : Ic.Req) : r.Label (low r) := by
  cases r
  · exact ⟨'v', by decide, rfl⟩
  · exact ⟨'i', by decide, rfl⟩

/-- A request and the text of its value. -/
structure Setting where
  req : Ic.Req
  text : Text

/-- `v(n)=1.5` -/
def Setting.word (s : Setting) : Text := low s.req ++ '=' :: s.text

/-- no blanks and no `=` -/
def Solid (t : Text) : Prop := ∀ c ∈ t, c.isWhitespace = false ∧ c ≠ '='

/-- The name is made of letters and digits and the text stands for the value. -/
def Setting.Ok (s : Setting) : Prop :=
  Ic.Plain s.req.name ∧ Solid s.text ∧ Units.convertUnits s.text = .ok s.req.value

theorem strip_eq {s : Text} (h : ∀ c ∈ s, c.isWhitespace = false) : Units.strip s = s := by
  have key : ∀ s : Text, (∀ c ∈ s, c.isWhitespace = false) → s.dropWhile Char.isWhitespace = s := by
    intro s h
    cases s with
    | nil => rfl
    | cons c s => rw [List.dropWhile_cons, if_neg (by rw [h c (by simp)]; simp)]
  rw [Units.strip, key s h, key s.reverse fun c hc => h c (by simpa using hc), List.reverse_reverse]

theorem plain_solid {n : Text} (h : Ic.Plain n) : Solid n := by
  intro c hc
  have h2 := h.2 c hc
  refine ⟨(Ic.alnum_not c h2).1, ?_⟩
  rintro rfl
  revert h2
  decide

theorem low_solid {r : Ic.Req} (h : Ic.Plain r.name) : Solid (low r) := by
  have hn := plain_solid h
  intro c hc
  cases r <;> simp only [low, List.mem_cons, List.mem_append, List.not_mem_nil, or_false] at hc <;> rcases hc with rfl | rfl | hc | rfl <;>
    first
      | exact hn c hc
      | (constructor <;> decide)

theorem word_value {s : Setting} (h : s.Ok) : paramValue s.word .float = some (low s.req, .num s.req.value) := by
  have h1 := low_solid h.1
  refine C72_number _ _ (fun hc => (h1 _ hc).2 rfl) (fun hc => (h.2.1 _ hc).2 rfl) (strip_eq ?_) _ h.2.2
  intro c hc
  rcases List.mem_append.1 hc with hc | hc
  · exact (h1 c hc).1
  · rcases List.mem_cons.1 hc with rfl | hc
    · decide
    · exact (h.2.1 c hc).1

theorem put_new {d : List (Text × ℚ)} {k : Text} {v : ℚ} (h : k ∉ d.map Prod.fst) : put d k v = d ++ [(k, v)] := by
  rw [put, if_neg]
  simp only [List.any_eq_true, beq_iff_eq, not_exists, not_and]
  intro p hp he
  exact h (List.mem_map.2 ⟨p, hp, he⟩)

theorem loop_settings (sets : List Setting) (hs : ∀ s ∈ sets, s.Ok) (rest : List Text) (name : Option Val) (d : List (Text × ℚ))
    (hd : (d.map Prod.fst ++ sets.map fun s => low s.req).Nodup) :
    loop (sets.map Setting.word ++ rest) name d = loop rest name (d ++ sets.map fun s => (low s.req, s.req.value)) := by
  induction sets generalizing d with
  | nil => simp
  | cons s sets ih =>
    have h0 := hs s (by simp)
    rw [List.map_cons, List.cons_append, loop.eq_def]
    simp only
    have hh : s.word.head? ≠ some '*' := by
      unfold Setting.word
      cases s.req <;> simp [low]
    have hn : low s.req ≠ "name".toList := by
      cases s.req <;> simp [low]
    rw [if_neg hh, word_value h0]
    simp only
    rw [if_neg (fun h => hn h.1)]
    simp only [toNumber]
    have hk : low s.req ∉ d.map Prod.fst := by
      intro hk
      rw [List.nodup_append] at hd
      exact hd.2.2 _ hk _ (by simp) rfl
    rw [put_new hk, ih (fun s' hs' => hs s' (by simp [hs']))]
    · simp
    · simpa using hd

/-- `name=a` -/
def nameWord (lbl : Text) : Text := "name=".toList ++ lbl

theorem name_value {lbl : Text} (hs : Solid lbl) (hv : Units.convertUnits lbl = .error .value) :
    paramValue (nameWord lbl) .float = some ("name".toList, .text lbl) := by
  have : nameWord lbl = "name".toList ++ '=' :: lbl := by simp [nameWord]
  rw [this, C72_split _ _ (by decide) (fun hc => (hs _ hc).2 rfl) (strip_eq ?_)]
  · simp [convert, hv]
  · intro c hc
    rcases List.mem_append.1 hc with hc | hc
    · have : ∀ c ∈ "name".toList, c.isWhitespace = false := by decide
      exact this c hc
    · rcases List.mem_cons.1 hc with rfl | hc
      · decide
      · exact (hs c hc).1

/-- end of the line or a comment -/
def Tail (t : List Text) : Prop := t = [] ∨ ∃ c r, t = ('*' :: c) :: r

theorem loop_tail {t : List Text} (h : Tail t) (n : Val) (d : List (Text × ℚ)) : loop t (some n) d = .ok (n, d) := by
  rcases h with rfl | ⟨c, r, rfl⟩
  · rfl
  · rw [loop, if_pos (by rfl)]

/-- C209: a directive that names a label and, once each, some node voltages and branch currents gives under that label the vector with
these values and zeros elsewhere. -/
theorem C209_vector_partial (toInt : Text → Option Nat) (nv : Nat) (vde : List Text) (line w : Text) (pre post : List (Setting × Nat))
    (lbl : Text) (hl : Solid lbl) (hv : Units.convertUnits lbl = .error .value) (t : List Text) (ht : Tail t)
    (hw : Netlist.words line = w :: (pre.map (fun p => p.1.word) ++ nameWord lbl :: (post.map (fun p => p.1.word) ++ t)))
    (hok : ∀ p ∈ pre ++ post, p.1.Ok) (hrow : ∀ p ∈ pre ++ post, p.1.req.Row toInt nv vde p.2)
    (hnd : ((pre ++ post).map Prod.snd).Nodup) :
    ∃ ics x, parseIc line = .ok (.text lbl, ics) ∧ build toInt nv vde ics = .ok x ∧
      (∀ p ∈ pre ++ post, ∀ k, p.2 = k + 1 → x k = p.1.req.value) ∧
      ∀ k, (∀ p ∈ pre ++ post, p.2 ≠ k + 1) → x k = 0 := by
  have hlab : ((pre ++ post).map fun p => low p.1.req).Nodup := by
    rw [List.nodup_map_iff_inj_on (List.Nodup.of_map _ hnd)]
    intro p hp q hq he
    have e2 : p.2 = q.2 := by
      have h1 := hrow p hp
      have h2 := hrow q hq
      rcases p with ⟨⟨rp, tp⟩, kp⟩
      rcases q with ⟨⟨rq, tq⟩, kq⟩
      simp only at he h1 h2 ⊢
      cases rp <;> cases rq <;> simp only [low, List.cons.injEq, List.append_cancel_right_eq, true_and] at he
      · subst he
        simp only [Ic.Req.Row] at h1 h2
        exact Option.some.inj (h1.symm.trans h2)
      · simp at he
      · simp at he
      · subst he
        obtain ⟨j, rfl, a1, a2⟩ := h1
        obtain ⟨j', rfl, b1, b2⟩ := h2
        rcases Nat.lt_trichotomy j j' with h | h | h
        · exact absurd a1 (b2 j h)
        · rw [h]
        · exact absurd b1 (a2 j' h)
    exact (List.nodup_map_iff_inj_on (List.Nodup.of_map _ hnd)).1 hnd p hp q hq e2
  obtain ⟨x, h1, h2, h3⟩ := Ic.C39_build_partial toInt nv vde low low_ok ((pre ++ post).map fun p => (p.1.req, p.2))
    (by
      intro p hp
      obtain ⟨q, hq, rfl⟩ := List.mem_map.1 hp
      exact (hok q hq).1)
    (by
      intro p hp
      obtain ⟨q, hq, rfl⟩ := List.mem_map.1 hp
      exact hrow q hq)
  rw [List.map_map] at h1
  refine ⟨(pre ++ post).map fun p => (low p.1.req, p.1.req.value), x, ?_, ?_, ?_, ?_⟩
  · rw [parseIc, hw, List.drop_succ_cons, List.drop_zero]
    rw [List.map_append, List.nodup_append] at hlab
    have a := loop_settings (pre.map Prod.fst) (by
        intro s hs
        obtain ⟨q, hq, rfl⟩ := List.mem_map.1 hs
        exact hok q (by simp [hq])) (nameWord lbl :: (post.map (fun p => p.1.word) ++ t)) none [] (by
        simpa [Function.comp_def] using hlab.1)
    rw [List.map_map] at a
    rw [show (pre.map fun p => p.1.word) = pre.map (Setting.word ∘ Prod.fst) from rfl, a, loop,
      if_neg (by simp [nameWord]), name_value hl hv]
    simp only [and_self, if_true, List.nil_append]
    have b := loop_settings (post.map Prod.fst) (by
        intro s hs
        obtain ⟨q, hq, rfl⟩ := List.mem_map.1 hs
        exact hok q (by simp [hq])) t (some (.text lbl)) ((pre.map Prod.fst).map fun s => (low s.req, s.req.value)) (by
        simp only [List.map_map]
        exact List.nodup_append.2 hlab)
    rw [List.map_map] at b
    rw [show (post.map fun p => p.1.word) = post.map (Setting.word ∘ Prod.fst) from rfl, b, loop_tail ht]
    simp [Function.comp_def]
  · unfold build
    rw [show ((pre ++ post).map fun p => (low p.1.req, p.1.req.value)) =
      (pre ++ post).map ((fun p : Ic.Req × Nat => (low p.1, p.1.value)) ∘ fun p : Setting × Nat => (p.1.req, p.2)) from rfl, h1]
  · intro p hp k hk
    obtain ⟨a, b, hab⟩ := List.append_of_mem hp
    refine h3 k (a.map fun p => (p.1.req, p.2)) (b.map fun p => (p.1.req, p.2)) (p.1.req, p.2) (by rw [hab]; simp) hk ?_
    intro q hq
    obtain ⟨q', hq', rfl⟩ := List.mem_map.1 hq
    intro he
    rw [hab, List.map_append, List.map_cons, List.nodup_append] at hnd
    have := (List.nodup_cons.1 hnd.2.1).1
    exact this (List.mem_map.2 ⟨q', hq', by simp only at he; rw [he, hk]⟩)
  · intro k hk
    refine h2 k ?_
    intro p hp
    obtain ⟨q, hq, rfl⟩ := List.mem_map.1 hp
    exact hk q hq

/-- C209: a directive without a name is refused, whatever else it says. -/
theorem C209_name (line : Text) (n : Val) (d : List (Text × ℚ)) (h : parseIc line = .ok (n, d)) :
    ∃ tok ∈ (Netlist.words line).drop 1, paramValue tok .float = some ("name".toList, n) := by
  have key : ∀ (toks : List Text) (d0 : List (Text × ℚ)) (name : Option Val), loop toks name d0 = .ok (n, d) →
      name = some n ∨ ∃ tok ∈ toks, paramValue tok .float = some ("name".toList, n) := by
    intro toks
    induction toks with
    | nil =>
      intro d0 name h
      cases name with
      | none => cases h
      | some m => simp only [loop, Except.ok.injEq, Prod.mk.injEq] at h; left; rw [h.1]
    | cons tok toks ih =>
      intro d0 name h
      rw [loop.eq_def] at h
      simp only at h
      split_ifs at h with hc
      · cases name with
        | none => cases h
        | some m => simp only [Except.ok.injEq, Prod.mk.injEq] at h; left; rw [h.1]
      rcases hp : paramValue tok .float with _ | ⟨label, v⟩
      · rw [hp] at h; cases h
      rw [hp] at h
      simp only at h
      split_ifs at h with hn
      · rcases ih _ _ h with h1 | ⟨t, h1, h2⟩
        · right
          refine ⟨tok, by simp, ?_⟩
          rw [hp, hn.1]
          cases h1
          rfl
        · exact .inr ⟨t, by simp [h1], h2⟩
      · rcases ht : toNumber v with e | x
        · rw [ht] at h; cases h
        rw [ht] at h
        rcases ih _ _ h with h1 | ⟨t, h1, h2⟩
        · exact .inl h1
        · exact .inr ⟨t, by simp [h1], h2⟩
  rcases key _ _ _ h with h1 | h1
  · cases h1
  · exact h1

/-! ### All directives of a netlist -/

theorem ofList_inj {a b : Text} (h : String.ofList a = String.ofList b) : a = b := by
  have := congrArg String.toList h
  simpa using this

theorem keep_get {X : Type} (d : Run.X0s X) (n : Val) (x : X) (s : Text) :
    (n = .text s → keep d n x (String.ofList s) = some x) ∧ (n ≠ .text s → keep d n x (String.ofList s) = d (String.ofList s)) := by
  constructor
  · rintro rfl
    simp [keep, Run.X0s.set]
  · intro h
    cases n with
    | text s' =>
      simp only [keep, Run.X0s.set]
      rw [if_neg]
      intro he
      exact h (by rw [ofList_inj he])
    | num _ => rfl
    | bool _ => rfl

/-- C209: a label stands for the vector of the last directive with this name. -/
theorem C209_last {X : Type} (build : List (Text × ℚ) → Except Err X) (d d' : Run.X0s X) (lines : List Text)
    (h : prepare build d lines = (d', none)) :
    ∃ ics, parseIcs lines = .ok ics ∧
      ∀ a p b s, ics = a ++ p :: b → p.1 = .text s → (∀ q ∈ b, q.1 ≠ .text s) →
        ∃ x, build p.2 = .ok x ∧ d' (String.ofList s) = some x := by
  unfold prepare at h
  rcases hp : parseIcs lines with e | ics
  · rw [hp] at h; cases h
  rw [hp] at h
  simp only at h
  refine ⟨ics, rfl, ?_⟩
  clear hp
  have old : ∀ (ics : List (Val × List (Text × ℚ))) (d : Run.X0s X), store build d ics = (d', none) → ∀ s, (∀ q ∈ ics, q.1 ≠ .text s) →
      d' (String.ofList s) = d (String.ofList s) := by
    intro ics
    induction ics with
    | nil => intro d h s _; cases h; rfl
    | cons q ics ih =>
      intro d h s hs
      rcases q with ⟨n, l⟩
      rw [store] at h
      rcases hb : build l with e | x
      · rw [hb] at h; cases h
      rw [hb] at h
      rw [ih _ h s fun q hq => hs q (by simp [hq])]
      exact (keep_get d n x s).2 (hs (n, l) (by simp))
  intro a p b s hab hps hb
  subst hab
  induction a generalizing d with
  | nil =>
    rcases p with ⟨n, l⟩
    rw [List.nil_append, store] at h
    rcases hx : build l with e | x
    · rw [hx] at h; cases h
    rw [hx] at h
    refine ⟨x, rfl, ?_⟩
    rw [old b _ h s hb]
    exact (keep_get d n x s).1 hps
  | cons q a ih =>
    rcases q with ⟨n, l⟩
    rw [List.cons_append, store] at h
    rcases hx : build l with e | x
    · rw [hx] at h; cases h
    rw [hx] at h
    exact ih _ h

/-- C209: an analysis that asks for a label is the analysis with the vector. -/
theorem C209_start {W P X R E : Type} (env : Run.Env W P X R E) (s : Run.Sys W P X) (a : Run.Item P X) (rest : List (Run.Item P X))
    (l : String) (x : X) (ha : a.x0 = .label l) (hx : s.x0s l = some x) :
    Run.mainLoop env s (a :: rest) = Run.mainLoop env s ({ a with x0 := .value x } :: rest) := by
  have h1 : Run.handle s.x0s [a] = some [{ a with x0 := .value x }] := by
    simp [Run.handle, Run.missing, ha, hx, Run.resolve, Run.resolveX0]
  have h2 : Run.handle s.x0s [({ a with x0 := .value x } : Run.Item P X)] = some [{ a with x0 := .value x }] := by
    simp [Run.handle, Run.missing, Run.resolve, Run.resolveX0]
  rw [Run.mainLoop, Run.mainLoop, h1, h2]

/-- C209: a line with a directive is read as initial conditions or as an analysis, never as both. -/
theorem C209_once (lines : List Text) (l : Text) (hl : l ∈ lines) (hd : l.head? = some '.') : (isIc l = true) ≠ (l ∈ analyses lines) := by
  simp [analyses, hl, hd]

/-- C209: the lines read as analyses are those that start with a dot and not with `.ic`; the others with a dot are initial conditions. -/
theorem C209_lines (lines : List Text) (l : Text) :
    (isIc l = true ↔ ∃ r, l = '.' :: 'i' :: 'c' :: r) ∧
    (l ∈ analyses lines ↔ l ∈ lines ∧ (∃ r, l = '.' :: r) ∧ ¬ ∃ r, l = '.' :: 'i' :: 'c' :: r) := by
  have h : isIc l = true ↔ ∃ r, l = '.' :: 'i' :: 'c' :: r := by
    rcases l with _ | ⟨a, _ | ⟨b, _ | ⟨c, r⟩⟩⟩ <;> simp [isIc]
  refine ⟨h, ?_⟩
  rw [← h]
  rcases l with _ | ⟨a, r⟩ <;> simp [analyses]

theorem map_lookup (d : List (Text × ℚ)) (k k' : Text) (v : ℚ) (h : k ∈ d.map Prod.fst) :
    (d.map fun p => if p.1 = k then (k, v) else p).lookup k' = if k' = k then some v else d.lookup k' := by
  by_cases hk : k' = k
  · subst hk
    induction d with
    | nil => simp at h
    | cons p d ih =>
      by_cases hp : p.1 = k'
      · simp [hp]
      · have hm : k' ∈ d.map Prod.fst := by
          simp only [List.map_cons, List.mem_cons] at h
          exact h.resolve_left fun e => hp e.symm
        have hb : (k' == p.1) = false := by simpa using fun e : k' = p.1 => hp e.symm
        simp only [List.map_cons, if_neg hp, List.lookup, hb]
        simpa using ih hm
  · clear h
    induction d with
    | nil => simp [hk]
    | cons p d ih =>
      simp only [if_neg hk] at ih ⊢
      by_cases hp : p.1 = k
      · have hb : (k' == k) = false := by simpa using hk
        simp only [List.map_cons, List.lookup, hp, if_true, hb, ih]
      · simp only [List.map_cons, if_neg hp, List.lookup, ih]

theorem put_lookup (d : List (Text × ℚ)) (k k' : Text) (v : ℚ) : (put d k v).lookup k' = if k' = k then some v else d.lookup k' := by
  by_cases h : k ∈ d.map Prod.fst
  · rw [put, if_pos, map_lookup d k k' v h]
    obtain ⟨p, hp, rfl⟩ := List.mem_map.1 h
    exact List.any_eq_true.2 ⟨p, hp, by simp⟩
  · rw [put_new h]
    induction d with
    | nil =>
      by_cases hk : k' = k
      · simp [hk]
      · have hb : (k' == k) = false := by simpa using hk
        simp [List.lookup, hb, hk]
    | cons p d ih =>
      simp only [List.map_cons, List.mem_cons, not_or] at h
      simp only [List.cons_append, List.lookup]
      by_cases hp : k' = p.1
      · have hne : k' ≠ k := fun e => h.1 (e.symm.trans hp)
        have hb : (k' == p.1) = true := by simpa using hp
        simp only [hb, if_neg hne]
      · have hb : (k' == p.1) = false := by simpa using hp
        simp only [hb]
        exact ih h.2

theorem loop_any (sets : List Setting) (hs : ∀ s ∈ sets, s.Ok) (rest : List Text) (name : Option Val) (d : List (Text × ℚ)) :
    loop (sets.map Setting.word ++ rest) name d = loop rest name (sets.foldl (fun d s => put d (low s.req) s.req.value) d) := by
  induction sets generalizing d with
  | nil => simp
  | cons s sets ih =>
    have h0 := hs s (by simp)
    rw [List.map_cons, List.cons_append, loop.eq_def]
    simp only
    have hh : s.word.head? ≠ some '*' := by
      unfold Setting.word
      cases s.req <;> simp [low]
    have hn : low s.req ≠ "name".toList := by
      cases s.req <;> simp [low]
    rw [if_neg hh, word_value h0]
    simp only
    rw [if_neg (fun h => hn h.1)]
    simp only [toNumber]
    rw [ih (fun s' hs' => hs s' (by simp [hs'])), List.foldl_cons]

/-- C209: of several values for one voltage or current in a directive the last one counts. -/
theorem C209_repeat (line w : Text) (sets : List Setting) (lbl : Text) (hl : Solid lbl) (hv : Units.convertUnits lbl = .error .value)
    (t : List Text) (ht : Tail t) (hw : Netlist.words line = w :: nameWord lbl :: (sets.map Setting.word ++ t)) (hok : ∀ s ∈ sets, s.Ok) :
    ∃ ics, parseIc line = .ok (.text lbl, ics) ∧
      (∀ a s b, sets = a ++ s :: b → (∀ q ∈ b, low q.req ≠ low s.req) → ics.lookup (low s.req) = some s.req.value) ∧
      ∀ k, (∀ s ∈ sets, low s.req ≠ k) → ics.lookup k = none := by
  have keep : ∀ (b : List Setting) (d : List (Text × ℚ)) (k : Text), (∀ q ∈ b, low q.req ≠ k) →
      (b.foldl (fun d s => put d (low s.req) s.req.value) d).lookup k = d.lookup k := by
    intro b
    induction b with
    | nil => intro d k _; rfl
    | cons q b ih =>
      intro d k h
      rw [List.foldl_cons, ih _ _ (fun q' hq' => h q' (by simp [hq'])), put_lookup, if_neg (Ne.symm (h q (by simp)))]
  refine ⟨sets.foldl (fun d s => put d (low s.req) s.req.value) [], ?_, ?_, ?_⟩
  · rw [parseIc, hw, List.drop_succ_cons, List.drop_zero, loop, if_neg (by simp [nameWord]), name_value hl hv]
    simp only [and_self, if_true]
    rw [loop_any sets hok, loop_tail ht]
  · rintro a s b rfl hb
    rw [List.foldl_append, List.foldl_cons, keep b _ _ hb, put_lookup, if_pos rfl]
  · intro k hk
    rw [keep sets [] k hk]
    rfl

/-- C209: a voltage of a node that does not exist is refused with `KeyError`, a current of an element without a current with
`ValueError`. -/
theorem C209_unknown (toInt : Text → Option Nat) (nv : Nat) (vde : List Text) (n : Text) (hn : Ic.Plain n) (val : ℚ) (rest : List (Text × ℚ)) :
    (toInt n = none → build toInt nv vde ((low (.v n val), val) :: rest) = .error .key) ∧
    (Ic.lower n ∉ vde → build toInt nv vde ((low (.i n val), val) :: rest) = .error .value) := by
  obtain ⟨h1, h2⟩ := Ic.C39_build_unknown toInt nv vde low low_ok [] (by simp) (by simp) n hn val rest
  constructor
  · intro h
    unfold build
    rw [show (low (.v n val), val) :: rest = ([] : List (Ic.Req × Nat)).map (fun p => (low p.1, p.1.value)) ++ (low (.v n val), val) :: rest from rfl, h1 h]
  · intro h
    unfold build
    rw [show (low (.i n val), val) :: rest = ([] : List (Ic.Req × Nat)).map (fun p => (low p.1, p.1.value)) ++ (low (.i n val), val) :: rest from rfl, h2 h]

/-! ### Where the code disagrees -/

/-- C209 refuted: a name that can be read as a number is no name: no analysis finds the vector. -/
theorem C209_number_refuted {X : Type} (build : List (Text × ℚ) → Except Err X) (x : X)
    (hb : build [("v(1)".toList, 5)] = .ok x) (d : Run.X0s X) :
    prepare build d [".ic name=1 v(1)=5".toList] = (d, none) := by
  have h : parseIcs [".ic name=1 v(1)=5".toList] = .ok [(.num 1, [("v(1)".toList, 5)])] := by
    have : (parseIcs [".ic name=1 v(1)=5".toList]).toOption = some [(.num 1, [("v(1)".toList, 5)])] := by decide +kernel
    cases h : parseIcs [".ic name=1 v(1)=5".toList] <;> rw [h] at this <;> cases this
    rfl
  rw [prepare, h]
  simp only [store, hb, keep]

/-- C209 refuted: a label that this netlist does not define is not refused, if a netlist read before by the same program defined it. -/
theorem C209_stale_refuted {W P X R E : Type} (build : List (Text × ℚ) → Except Err X) (d : Run.X0s X) (l : String) (x : X)
    (hx : d l = some x) (env : Run.Env W P X R E) (w : W) (q : List (Run.Item P X)) (a : Run.Item P X) (ha : a.x0 = .label l) :
    Run.mainLoop env ⟨w, (prepare build d []).1, q⟩ [a] = Run.mainLoop env ⟨w, (prepare build d []).1, q⟩ [{ a with x0 := .value x }] :=
  C209_start env _ a [] l x ha (by simpa [prepare, parseIcs, store] using hx)

/-- C209 refuted: a value that is no number raises `ValueError`, not `NetlistParseError`. -/
theorem C209_value_refuted : (parseIc ".ic name=a v(1)=x".toList matches .error .value) = true ∧
    (parseIc ".ic name=a v(1)=".toList matches .error .parse) = true := by
  have h1 : (parseIc ".ic name=a v(1)=x".toList).toOption = none := by decide +kernel
  constructor <;> decide +kernel

/-- C209 refuted: a node with a hyphen or an underscore in its name cannot be given a voltage (as in C39). -/
theorem C209_underscore_refuted (toInt : Text → Option Nat) (nv : Nat) (vde : List Text) :
    build toInt nv vde [("v(out_p)".toList, 3)] = .error .value := by
  rfl

/-! ### Example -/

/-- a directive meeting the hypotheses of `C209_vector_partial` -/
def s1 : Setting := ⟨.v "out".toList (3 / 2), "1.5".toList⟩
def s2 : Setting := ⟨.i "l1".toList (1 / 1000), "1m".toList⟩

example : Netlist.words ".ic v(out)=1.5 name=start i(l1)=1m * hot".toList =
      ".ic".toList :: ([(s1, 1)].map (fun p => p.1.word) ++ nameWord "start".toList :: ([(s2, 3)].map (fun p => p.1.word) ++
        ["*".toList, "hot".toList])) ∧ Tail ["*".toList, "hot".toList] ∧
      Solid "start".toList ∧ (Units.convertUnits "start".toList matches .error .value) = true := by
  refine ⟨by decide +kernel, .inr ⟨[], ["hot".toList], rfl⟩, by unfold Solid; decide, by decide +kernel⟩

example : s1.Ok ∧ s2.Ok ∧ s1.req.Row (fun n => if n = "out".toList then some 1 else none) 3 ["l1".toList] 1 ∧
    s2.req.Row (fun n => if n = "out".toList then some 1 else none) 3 ["l1".toList] 3 := by
  have key : ∀ (t : Text) (x : ℚ), (Units.convertUnits t).toOption = some x → Units.convertUnits t = .ok x := by
    intro t x h
    cases hc : Units.convertUnits t <;> rw [hc] at h <;> cases h
    rfl
  refine ⟨⟨⟨by decide, by decide⟩, by unfold Solid; decide, key _ _ (by decide +kernel)⟩,
    ⟨⟨by decide, by decide⟩, by unfold Solid; decide, key _ _ (by decide +kernel)⟩, by simp [Ic.Req.Row, s1], ⟨0, rfl, by decide, by simp⟩⟩

example : (parseIc ".ic name=a v(1)=5 v(1)=7".toList).toOption = some (.text "a".toList, [("v(1)".toList, 7)]) ∧
    analyses [".ic name=a".toList, ".info x".toList, "r1 1 0 1k".toList] = [".info x".toList] := by
  constructor <;> decide +kernel

end Verif.IcDir
