import Verif.Model.Csv

/-! # Results files (C48) -/

namespace Verif.Csv

variable {K : Type}

/-- A name without blanks; not empty. -/
def Name (w : Word) : Prop := w ≠ [] ∧ ∀ c ∈ w, c.isWhitespace = false

theorem sep_ws : sep.isWhitespace = true := by decide

theorem Name.noSep {w : Word} (h : Name w) : sep ∉ w := fun hm => by
  have := h.2 _ hm; rw [sep_ws] at this; cases this

theorem split_noSep {w : Word} (h : sep ∉ w) : split w = [w] := by
  induction w with
  | nil => rfl
  | cons c w ih =>
    have hc : c ≠ sep := fun e => h (by simp [e])
    have hw : sep ∉ w := fun e => h (List.mem_cons_of_mem _ e)
    simp [split, hc, ih hw]

theorem split_append_sep {w r : Word} (h : sep ∉ w) : split (w ++ sep :: r) = w :: split r := by
  induction w with
  | nil => simp [split]
  | cons c w ih =>
    have hc : c ≠ sep := fun e => h (by simp [e])
    have hw : sep ∉ w := fun e => h (List.mem_cons_of_mem _ e)
    simp [split, hc, ih hw]

theorem split_join : ∀ (ws : List Word), ws ≠ [] → (∀ w ∈ ws, sep ∉ w) → split (join ws) = ws
  | [], h, _ => absurd rfl h
  | [w], _, hw => by simpa [join] using split_noSep (hw w (by simp))
  | w :: v :: ws, _, hw => by
    rw [join, split_append_sep (hw w (by simp)), split_join (v :: ws) (by simp) (fun x hx => hw x (by simp [hx]))]

theorem join_ne_nil : ∀ (ws : List Word), ws ≠ [] → (∀ w ∈ ws, w ≠ []) → join ws ≠ []
  | [], h, _ => absurd rfl h
  | [w], _, hw => by simpa [join] using hw w (by simp)
  | w :: v :: ws, _, hw => by simp [join]

theorem join_mem {p : Char → Prop} (hs : p sep) : ∀ (ws : List Word), (∀ w ∈ ws, ∀ c ∈ w, p c) → ∀ c ∈ join ws, p c
  | [], _, c, hc => by simp [join] at hc
  | [w], hw, c, hc => hw w (by simp) c (by simpa [join] using hc)
  | w :: v :: ws, hw, c, hc => by
    rw [join, List.mem_append, List.mem_cons] at hc
    rcases hc with hc | hc | hc
    · exact hw w (by simp) c hc
    · rw [hc]; exact hs
    · exact join_mem hs (v :: ws) (fun x hx => hw x (by simp [hx])) c hc

theorem join_last : ∀ (ws : List Word), ws ≠ [] → (∀ w ∈ ws, Name w) →
    ∃ c r, join ws = r ++ [c] ∧ c.isWhitespace = false
  | [], h, _ => absurd rfl h
  | [w], _, hw => by
    have hn := hw w (by simp)
    refine ⟨w.getLast hn.1, w.dropLast, ?_, hn.2 _ (List.getLast_mem hn.1)⟩
    simp [join, List.dropLast_concat_getLast hn.1]
  | w :: v :: ws, _, hw => by
    obtain ⟨c, r, h1, h2⟩ := join_last (v :: ws) (by simp) (fun x hx => hw x (by simp [hx]))
    exact ⟨c, w ++ sep :: r, by simp [join, h1], h2⟩

theorem strip_header (headers : List Word) (hne : headers ≠ []) (hh : ∀ w ∈ headers, Name w) :
    strip ('#' :: join headers) = '#' :: join headers := by
  obtain ⟨c, r, h1, h2⟩ := join_last headers hne hh
  have e : ('#' :: join headers).dropWhile Char.isWhitespace = '#' :: join headers := by
    rw [List.dropWhile_cons_of_neg]; decide
  rw [strip, e, h1]
  simp only [List.reverse_cons, List.reverse_append, List.cons_append, List.reverse_nil, List.nil_append]
  rw [List.dropWhile_cons_of_neg (by simp [h2])]
  simp

theorem getHeaders_write (fmt : K → Word) (old : List Word) (rows : List (List K)) (headers : List Word)
    (hne : headers ≠ []) (hh : ∀ w ∈ headers, Name w) :
    getHeaders (writeCsv fmt old rows headers false) = .ok headers := by
  have hj := join_ne_nil headers hne (fun w hw => (hh w hw).1)
  simp only [writeCsv, Bool.false_eq_true, if_false, hj, List.nil_append, List.cons_append, getHeaders]
  rw [strip_header headers hne hh]
  simp [hj, split_join headers hne (fun w hw => (hh w hw).noSep)]

theorem writeCsv_eq (fmt : K → Word) (old : List Word) (rows : List (List K)) (headers : List Word)
    (hne : headers ≠ []) (hh : ∀ w ∈ headers, Name w) :
    writeCsv fmt old rows headers false = ('#' :: join headers) :: rows.map (fun r => join (r.map fmt)) := by
  have hj := join_ne_nil headers hne (fun w hw => (hh w hw).1)
  simp [writeCsv, hj]

/-- Numbers are written without separator and comment sign and read back as they were. -/
def Reads (fmt : K → Word) (parse : Word → Option K) (x : K) : Prop :=
  parse (fmt x) = some x ∧ fmt x ≠ [] ∧ sep ∉ fmt x ∧ '#' ∉ fmt x

theorem lineWords_row (fmt : K → Word) (parse : Word → Option K) (r : List K) (hr : r ≠ [])
    (hx : ∀ x ∈ r, Reads fmt parse x) : lineWords (join (r.map fmt)) = some (r.map fmt) := by
  have h1 : r.map fmt ≠ [] := by simpa using hr
  have hn := join_ne_nil (r.map fmt) h1 (by
    intro w hw
    obtain ⟨x, hxm, rfl⟩ := List.mem_map.1 hw
    exact (hx x hxm).2.1)
  have hc : ∀ c ∈ join (r.map fmt), c ≠ '#' := join_mem (p := fun c => c ≠ '#') (by decide) _ (by
    intro w hw c hcm he
    obtain ⟨x, hxm, rfl⟩ := List.mem_map.1 hw
    exact (hx x hxm).2.2.2 (he ▸ hcm))
  have ht : (join (r.map fmt)).takeWhile (· ≠ '#') = join (r.map fmt) := by
    have gen : ∀ l : Word, (∀ c ∈ l, c ≠ '#') → l.takeWhile (· ≠ '#') = l := by
      intro l
      induction l with
      | nil => simp
      | cons a l ih =>
        intro h
        have := h a (by simp)
        rw [List.takeWhile_cons_of_pos (by simpa using this), ih (fun c hc => h c (by simp [hc]))]
    exact gen _ hc
  rw [lineWords]
  simp only [ht, hn, if_false]
  rw [split_join _ h1 (by
    intro w hw
    obtain ⟨x, hxm, rfl⟩ := List.mem_map.1 hw
    exact (hx x hxm).2.2.1)]

theorem lineWords_header (h : Word) : lineWords ('#' :: h) = none := by
  simp [lineWords]

theorem rows_words (fmt : K → Word) (parse : Word → Option K) (rows : List (List K))
    (hr : ∀ r ∈ rows, r ≠ []) (hx : ∀ r ∈ rows, ∀ x ∈ r, Reads fmt parse x) :
    (rows.map (fun r => join (r.map fmt))).filterMap lineWords = rows.map (List.map fmt) := by
  induction rows with
  | nil => rfl
  | cons r rows ih =>
    rw [List.map_cons, List.filterMap_cons_some (lineWords_row fmt parse r (hr r (by simp)) (hx r (by simp))),
      ih (fun s hs => hr s (by simp [hs])) (fun s hs => hx s (by simp [hs])), List.map_cons]

/-- One line: the chosen columns of a sample. -/
theorem pick_row (fmt : K → Word) (parse : Word → Option K) (r : List K) (hx : ∀ x ∈ r, Reads fmt parse x)
    (his : List Nat) (hi : ∀ i ∈ his, i < r.length) :
    pick parse his (r.map fmt) = .ok (his.filterMap (fun i => r[i]?)) := by
  induction his with
  | nil => rfl
  | cons i his ih =>
    have h := hi i (by simp)
    have e : (r.map fmt)[i]? = some (fmt r[i]) := by simp [h]
    have hp := (hx r[i] (List.getElem_mem h)).1
    have ih' := ih (fun j hj => hi j (by simp [hj]))
    simp only [pick] at ih' ⊢
    rw [List.mapM_cons, ih', List.filterMap_cons_some (by simp [h] : r[i]? = some r[i])]
    simp [e, hp, bind, Except.bind, pure, Except.pure]

theorem mapM_ok {α β : Type} (f : α → Except Err β) (g : α → β) :
    ∀ l : List α, (∀ a ∈ l, f a = .ok (g a)) → l.mapM f = .ok (l.map g)
  | [], _ => rfl
  | a :: l, h => by
    rw [List.mapM_cons, h a (by simp), mapM_ok f g l (fun b hb => h b (by simp [hb]))]
    rfl

/-- The lines of samples alone. -/
theorem loadRows_rows (fmt : K → Word) (parse : Word → Option K) (rows : List (List K)) (n : Nat) (hn : 0 < n)
    (hr : ∀ r ∈ rows, r.length = n) (hx : ∀ r ∈ rows, ∀ x ∈ r, Reads fmt parse x)
    (his : List Nat) (hi : ∀ i ∈ his, i < n) :
    loadRows parse his (rows.map (fun r => join (r.map fmt)))
      = .ok (rows.map (fun r => his.filterMap (fun i => r[i]?))) := by
  rw [loadRows, rows_words fmt parse rows (fun r h e => by have := hr r h; rw [e] at this; simp at this; omega) hx]
  induction rows with
  | nil => rfl
  | cons r rows ih =>
    rw [List.map_cons, List.mapM_cons, pick_row fmt parse r (hx r (by simp)) his
      (fun i h => by rw [hr r (by simp)]; exact hi i h),
      ih (fun s hs => hr s (by simp [hs])) (fun s hs => hx s (by simp [hs]))]
    rfl

theorem indexOf?_lt : ∀ (x : Word) (ys : List Word) (i : Nat), indexOf? x ys = some i → i < ys.length
  | x, [], i, h => by simp [indexOf?] at h
  | x, y :: ys, i, h => by
    rw [indexOf?] at h
    split at h
    · cases h; simp
    · obtain ⟨j, hj, rfl⟩ := Option.map_eq_some_iff.1 h
      have := indexOf?_lt x ys j hj
      simp; omega

theorem headersIndex_lt (headers load : List Word) : ∀ i ∈ headersIndex headers load, i < headers.length := by
  intro i hi
  rw [headersIndex] at hi
  split at hi
  · simpa using hi
  · obtain ⟨l, _, h⟩ := List.mem_filterMap.1 hi
    simpa using indexOf?_lt _ _ _ h

/-- What the file written last gives for any request, chunk length and number of lines skipped. -/
theorem load_write (fmt : K → Word) (parse : Word → Option K) (old : List Word) (rows : List (List K))
    (headers : List Word) (hne : headers ≠ []) (hh : ∀ w ∈ headers, Name w)
    (hr : ∀ r ∈ rows, r.length = headers.length) (hx : ∀ r ∈ rows, ∀ x ∈ r, Reads fmt parse x)
    (load : List Word) (hl : load = [] ∨ (headersIndex headers load).length = load.length)
    (nsamples : Option Nat) (skip : Nat) :
    loadCsv parse (writeCsv fmt old rows headers false) load nsamples skip
      = .ok (let all := (rows.drop (skip - 1)).map (fun r => (headersIndex headers load).filterMap (fun i => r[i]?))
             let data := match nsamples with
              | none => all
              | some n => all.take n
             { data := data
               headers := (headersIndex headers load).map (fun i => headers.getD i [])
               pos := skip + data.length
               eof := match nsamples with
                | none => true
                | some n => decide (n = rows.length - (skip - 1)) }) := by
  have hpos : 0 < headers.length := List.length_pos_iff.2 hne
  have hc : ¬ (load ≠ [] ∧ (headersIndex headers load).length ≠ load.length) := by
    rcases hl with h | h
    · simp [h]
    · simp [h]
  have hrows : loadRows parse (headersIndex headers load) ((writeCsv fmt old rows headers false).drop skip)
      = .ok ((rows.drop (skip - 1)).map (fun r => (headersIndex headers load).filterMap (fun i => r[i]?))) := by
    have key := loadRows_rows fmt parse (rows.drop (skip - 1)) headers.length hpos
      (fun r h => hr r (List.mem_of_mem_drop h)) (fun r h => hx r (List.mem_of_mem_drop h))
      (headersIndex headers load) (headersIndex_lt headers load)
    rw [writeCsv_eq fmt old rows headers hne hh]
    cases skip with
    | zero =>
      rw [List.drop_zero, ← key]
      simp [loadRows, lineWords_header]
    | succ k =>
      rw [List.drop_succ_cons, ← List.map_drop]
      exact key
  have hmin : ∀ (n : Nat) (l : List (List K)), l.take (min n l.length) = l.take n := by
    intro n l
    rcases Nat.le_total n l.length with h | h
    · rw [Nat.min_eq_left h]
    · rw [Nat.min_eq_right h, List.take_length, List.take_of_length_le h]
  rw [loadCsv, getHeaders_write fmt old rows headers hne hh]
  simp only [bind, Except.bind, hc, if_false, hrows, pure, Except.pure]
  cases nsamples with
  | none => simp
  | some n =>
    simp only [hmin]
    simp

/-- C48: the whole file gives back the samples and names that were written. -/
theorem C48_roundtrip (fmt : K → Word) (parse : Word → Option K) (old : List Word) (rows : List (List K))
    (headers : List Word) (hne : headers ≠ []) (hh : ∀ w ∈ headers, Name w)
    (hr : ∀ r ∈ rows, r.length = headers.length) (hx : ∀ r ∈ rows, ∀ x ∈ r, Reads fmt parse x) :
    loadCsv parse (writeCsv fmt old rows headers false) [] none 0
      = .ok { data := rows, headers := headers, pos := rows.length, eof := true } := by
  have hid : ∀ {α : Type} (l : List α), (List.range l.length).filterMap (fun i => l[i]?) = l := by
    intro α l
    apply List.ext_getElem?
    intro i
    induction l generalizing i with
    | nil => simp
    | cons a l ih =>
      rw [List.length_cons, List.range_succ_eq_map, List.filterMap_cons_some (by simp : (a :: l)[0]? = some a),
        List.filterMap_map]
      cases i with
      | zero => simp
      | succ i =>
        have := ih i
        simpa [Function.comp_def] using this
  rw [load_write fmt parse old rows headers hne hh hr hx [] (Or.inl rfl)]
  have e1 : rows.map (fun r => (headersIndex headers []).filterMap (fun i => r[i]?)) = rows := by
    conv => rhs; rw [← List.map_id rows]
    apply List.map_congr_left
    intro r h
    simp only [headersIndex, if_true, id]
    rw [← hr r h, hid]
  have e2 : (headersIndex headers []).map (fun i => headers.getD i []) = headers := by
    simp only [headersIndex, if_true]
    apply List.ext_getElem
    · simp
    · intro i h1 h2; simp [h2]
  simp only [Nat.zero_sub, List.drop_zero, e1, e2, Nat.zero_add]

theorem indexOf?_spec : ∀ (x : Word) (ys : List Word), ys.Nodup → ∀ i (h : i < ys.length), ys[i] = x →
    indexOf? x ys = some i
  | x, [], _, i, h, _ => by simp at h
  | x, y :: ys, hn, i, h, e => by
    rw [indexOf?]
    cases i with
    | zero => simp at e; simp [e]
    | succ i =>
      have h' : i < ys.length := by simpa using h
      have e' : ys[i] = x := by simpa using e
      have hne : y ≠ x := by
        intro hyx
        exact (List.nodup_cons.1 hn).1 (by rw [hyx, ← e']; exact List.getElem_mem h')
      simp [hne, indexOf?_spec x ys (List.nodup_cons.1 hn).2 i h' e']

/-- C48: whatever names are asked for, in any order and letter case, each sample has under the requested name the value that
was written for that name. -/
theorem C48_select (fmt : K → Word) (parse : Word → Option K) (old : List Word) (rows : List (List K))
    (headers : List Word) (hne : headers ≠ []) (hh : ∀ w ∈ headers, Name w) (hd : (headers.map lowerW).Nodup)
    (hr : ∀ r ∈ rows, r.length = headers.length) (hx : ∀ r ∈ rows, ∀ x ∈ r, Reads fmt parse x)
    (cols : List (Fin headers.length)) (load : List Word)
    (hl : load.map lowerW = cols.map (fun i => lowerW headers[i])) (hl0 : load ≠ []) :
    loadCsv parse (writeCsv fmt old rows headers false) load none 0
      = .ok { data := rows.map (fun r => cols.filterMap (fun i : Fin headers.length => r[i.1]?))
              headers := cols.map (fun i => headers[i])
              pos := rows.length
              eof := true } := by
  have hix : headersIndex headers load = cols.map Fin.val := by
    rw [headersIndex, if_neg hl0]
    have : load.filterMap (fun lh => indexOf? (lowerW lh) (headers.map lowerW))
        = (load.map lowerW).filterMap (fun k => indexOf? k (headers.map lowerW)) := by
      rw [List.filterMap_map]; rfl
    rw [this, hl, List.filterMap_map]
    clear hl this
    induction cols with
    | nil => rfl
    | cons c cols ih =>
      rw [List.filterMap_cons_some (b := c.1), ih, List.map_cons]
      exact indexOf?_spec _ _ hd c.1 (by simp) (by simp)
  have hlen : load.length = cols.length := by simpa using congrArg List.length hl
  rw [load_write fmt parse old rows headers hne hh hr hx load (Or.inr (by rw [hix]; simp [hlen]))]
  simp [hix, List.filterMap_map, Function.comp_def]

/-- C48: a name that is not in the file is an error. -/
theorem C48_missing (fmt : K → Word) (parse : Word → Option K) (old : List Word) (rows : List (List K))
    (headers : List Word) (hne : headers ≠ []) (hh : ∀ w ∈ headers, Name w) (load : List Word) (nsamples : Option Nat)
    (skip : Nat) (q : Word) (hq : q ∈ load) (hm : ∀ h ∈ headers, lowerW h ≠ lowerW q) :
    loadCsv parse (writeCsv fmt old rows headers false) load nsamples skip = .error .value := by
  have hnone : indexOf? (lowerW q) (headers.map lowerW) = none := by
    clear hne hh
    induction headers with
    | nil => rfl
    | cons h hs ih =>
      have h1 := hm h (by simp)
      simp [indexOf?, h1, ih (fun k hk => hm k (by simp [hk]))]
  have hl0 : load ≠ [] := fun e => by simp [e] at hq
  have hlt : (headersIndex headers load).length < load.length := by
    rw [headersIndex, if_neg hl0]
    obtain ⟨a, b, rfl⟩ := List.append_of_mem hq
    rw [List.filterMap_append,
      List.filterMap_cons_none (f := fun lh => indexOf? (lowerW lh) (headers.map lowerW)) hnone]
    have h1 := List.length_filterMap_le (fun lh => indexOf? (lowerW lh) (headers.map lowerW)) a
    have h2 := List.length_filterMap_le (fun lh => indexOf? (lowerW lh) (headers.map lowerW)) b
    simp only [List.length_append, List.length_cons]
    omega
  rw [loadCsv, getHeaders_write fmt old rows headers hne hh]
  simp [bind, Except.bind, hl0, Nat.ne_of_lt hlt, throw, throwThe, MonadExceptOf.throw]

/-- C48: writing the samples in several calls leaves the same file as writing them at once. -/
theorem C48_append (fmt : K → Word) (old : List Word) (r1 r2 : List (List K)) (headers h2 : List Word) :
    writeCsv fmt (writeCsv fmt old r1 headers false) r2 h2 true = writeCsv fmt old (r1 ++ r2) headers false := by
  simp [writeCsv]

/-- C48: with `skip` lines left out (the header is the first of them) and at most `n` samples. -/
theorem C48_chunk_partial (fmt : K → Word) (parse : Word → Option K) (old : List Word) (rows : List (List K))
    (headers : List Word) (hne : headers ≠ []) (hh : ∀ w ∈ headers, Name w)
    (hr : ∀ r ∈ rows, r.length = headers.length) (hx : ∀ r ∈ rows, ∀ x ∈ r, Reads fmt parse x) (k n : Nat) :
    ∃ res, loadCsv parse (writeCsv fmt old rows headers false) [] (some n) (k + 1) = .ok res
      ∧ res.data = (rows.drop k).take n ∧ res.pos = k + 1 + res.data.length
      ∧ (res.eof = true ↔ n = rows.length - k) := by
  have hw := load_write fmt parse old rows headers hne hh hr hx [] (Or.inl rfl) (some n) (k + 1)
  have h0 := load_write fmt parse old rows headers hne hh hr hx [] (Or.inl rfl) none 0
  rw [C48_roundtrip fmt parse old rows headers hne hh hr hx] at h0
  have e : rows.map (fun r => (headersIndex headers []).filterMap (fun i => r[i]?)) = rows := by
    have := congrArg Loaded.data (Except.ok.inj h0)
    simpa using this.symm
  refine ⟨_, hw, ?_, ?_, ?_⟩
  · simp only [Nat.add_sub_cancel]
    rw [List.map_drop, e]
  · rfl
  · simp

/-- C48: when the end-of-file flag is set, the last sample has been delivered. -/
theorem C48_eof_sound (fmt : K → Word) (parse : Word → Option K) (old : List Word) (rows : List (List K))
    (headers : List Word) (hne : headers ≠ []) (hh : ∀ w ∈ headers, Name w)
    (hr : ∀ r ∈ rows, r.length = headers.length) (hx : ∀ r ∈ rows, ∀ x ∈ r, Reads fmt parse x) (k n : Nat)
    (res : Loaded K)
    (h : loadCsv parse (writeCsv fmt old rows headers false) [] (some n) (k + 1) = .ok res) (he : res.eof = true) :
    res.data = rows.drop k := by
  obtain ⟨res', h1, h2, _, h4⟩ := C48_chunk_partial fmt parse old rows headers hne hh hr hx k n
  rw [h] at h1
  cases h1
  rw [h2, h4.1 he]
  apply List.take_of_length_le
  simp

/-- A digit for each number below ten; enough for the examples. -/
def digit (n : Nat) : Word := [Char.ofNat (48 + n)]

instance {α : Type} [DecidableEq α] : DecidableEq (Except Err α)
  | .ok a, .ok b => if h : a = b then isTrue (by rw [h]) else isFalse (fun e => h (Except.ok.inj e))
  | .error a, .error b => if h : a = b then isTrue (by rw [h]) else isFalse (fun e => h (Except.error.inj e))
  | .ok _, .error _ => isFalse (fun e => nomatch e)
  | .error _, .ok _ => isFalse (fun e => nomatch e)

def undigit (w : Word) : Option Nat :=
  match w with
  | [c] => if 48 ≤ c.toNat ∧ c.toNat < 58 then some (c.toNat - 48) else none
  | _ => none

def sampleFile : List Word := writeCsv digit [] [[0, 5], [1, 6], [2, 7]] ["T".toList, "Vn1".toList] false

/-- C48 fails for chunks: going on at the position returned delivers a sample twice. -/
theorem C48_chunks_refuted :
    ∃ a b : Loaded Nat, loadCsv undigit sampleFile [] (some 1) 0 = .ok a
      ∧ loadCsv undigit sampleFile [] (some 1) a.pos = .ok b
      ∧ a.data = [[0, 5]] ∧ b.data = [[0, 5]] ∧ a.pos = 1 :=
  ⟨⟨[[0, 5]], ["T".toList, "Vn1".toList], 1, false⟩, ⟨[[0, 5]], ["T".toList, "Vn1".toList], 2, false⟩,
    by decide +kernel⟩

/-- C48 fails for the end-of-file flag: more samples asked for than there are, all delivered, no flag. -/
theorem C48_eof_refuted :
    ∃ a : Loaded Nat, loadCsv undigit sampleFile [] (some 4) 0 = .ok a
      ∧ a.data = [[0, 5], [1, 6], [2, 7]] ∧ a.eof = false :=
  ⟨⟨[[0, 5], [1, 6], [2, 7]], ["T".toList, "Vn1".toList], 3, false⟩, by decide +kernel⟩

/-- C48: a blank first line is an error although `get_headers` means to go over it. -/
theorem C48_blank_refuted : getHeaders ([] :: sampleFile) = .error .index := by decide +kernel

/-- The hypotheses are met by a file with two columns read in another order and letter case. -/
example : (∀ w ∈ ["T".toList, "Vn1".toList], Name w)
    ∧ (∀ r ∈ [[0, 5], [1, 6], [2, 7]], ∀ x ∈ r, Reads digit undigit x)
    ∧ loadCsv undigit sampleFile ["VN1".toList, "t".toList] none 0
      = .ok ⟨[[5, 0], [6, 1], [7, 2]], ["Vn1".toList, "T".toList], 3, true⟩ := by
  refine ⟨?_, ?_, by decide +kernel⟩
  · simp [Name]
  · unfold Reads; decide +kernel

end Verif.Csv
