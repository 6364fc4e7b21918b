import Verif.Model.ShootInit
import Verif.Props.Tran

/-!
Property C220 (the start of the shooting method).
-/

namespace Verif.ShootInit
open Verif.DfBuffer Verif.Tran Verif.Op
open Verif.Circuit (Err)

/-! ### `get_as_matrix` -/

section
variable {α : Type}

theorem fold_flat (v : Nat) (r : List (List (List α))) (a : List α) :
    r.foldl (fun acc e => e.getD v [] ++ acc) a = (r.reverse.map (·.getD v [])).flatten ++ a := by
  induction r generalizing a with
  | nil => simp
  | cons e r ih => rw [List.foldl_cons, ih]; simp

/-- the entries of a column, oldest first -/
theorem column_eq {items : List (List (List α))} (h : items ≠ []) (v : Nat) :
    column items v = .ok (items.reverse.map (·.getD v [])).flatten := by
  cases items with
  | nil => exact absurd rfl h
  | cons a r => rw [column, fold_flat]; simp

theorem fold_cols {items : List (List (List α))} (h : items ≠ []) {n : Nat} {l : List Nat}
    (hn : ∀ v ∈ l, ∀ e ∈ items, (e.getD v []).length = n) (cols : List (List α)) (hc : ∀ c ∈ cols, c.length = items.length * n) :
    l.foldlM (appendCol items) (some cols) = .ok (some (cols ++ l.map fun v => (items.reverse.map (·.getD v [])).flatten)) := by
  have hl : ∀ v ∈ l, ((items.reverse.map (·.getD v [])).flatten).length = items.length * n := by
    intro v hv
    rw [List.length_flatten, List.map_map]
    have : (items.reverse.map (List.length ∘ fun e => e.getD v [])) = items.reverse.map fun _ => n :=
      List.map_congr_left fun e he => hn v hv e (List.mem_reverse.1 he)
    rw [this]
    simp
  induction l generalizing cols with
  | nil => simp [pure, Except.pure]
  | cons v l ih =>
    rw [List.foldlM_cons]
    have e1 : appendCol items (some cols) v = .ok (some (cols ++ [(items.reverse.map (·.getD v [])).flatten])) := by
      rw [appendCol, column_eq h]
      simp only
      rw [if_pos]
      rw [List.all_eq_true]
      intro c hcm
      rw [hc c hcm, hl v List.mem_cons_self]
      simp
    rw [e1]
    show List.foldlM (appendCol items) (some _) l = _
    rw [ih (fun w hw => hn w (List.mem_cons_of_mem _ hw)) _ _ fun w hw => hl w (List.mem_cons_of_mem _ hw)]
    · simp
    · intro c hcm
      rcases List.mem_append.1 hcm with k | k
      · exact hc c k
      · rw [List.mem_singleton.1 k]; exact hl v List.mem_cons_self

end

/-- C220: `get_as_matrix` puts the points below each other, the oldest first, with one column for every position of the tuples. -/
theorem C220_matrix {α : Type} {b : Buf (List α)} (hw : 0 < b.width) (h : b.items ≠ []) {n : Nat}
    (hn : ∀ v < b.width, ∀ e ∈ b.items, (e.getD v []).length = n) :
    getAsMatrix b = .ok ((List.range b.width).map fun v => (b.items.reverse.map (·.getD v [])).flatten) := by
  obtain ⟨w, hw'⟩ : ∃ w, b.width = w + 1 := ⟨b.width - 1, by omega⟩
  rw [getAsMatrix, hw', List.range_succ_eq_map, List.foldlM_cons]
  have e1 : appendCol b.items none 0 = .ok (some [(b.items.reverse.map (·.getD 0 [])).flatten]) := by
    rw [appendCol, column_eq h]
  rw [e1]
  have e2 : ∀ x : Option (List (List α)), (Except.ok x >>= fun s' => (List.map Nat.succ (List.range w)).foldlM (appendCol b.items) s') =
      (List.map Nat.succ (List.range w)).foldlM (appendCol b.items) x := fun _ => rfl
  rw [e2, fold_cols h (n := n)]
  · simp
  · intro v hv
    obtain ⟨u, hu, rfl⟩ := List.mem_map.1 hv
    exact hn _ (by rw [hw']; have := List.mem_range.1 hu; simp; omega)
  · intro c hc
    rw [List.mem_singleton.1 hc, List.length_flatten, List.map_map]
    have : (b.items.reverse.map (List.length ∘ fun e => e.getD 0 [])) = b.items.reverse.map fun _ => n :=
      List.map_congr_left fun e he => hn 0 (by omega) e (List.mem_reverse.1 he)
    rw [this]
    simp

/-- C220: without points, or for tuples of no entries, there is no value to return (`UnboundLocalError`). -/
theorem C220_matrix_empty {α : Type} {b : Buf (List α)} (h : b.items = [] ∨ b.width = 0) : getAsMatrix b = .error .exn := by
  rw [getAsMatrix]
  obtain hw | ⟨w, hw⟩ : b.width = 0 ∨ ∃ w, b.width = w + 1 := by
    cases hb : b.width with
    | zero => exact .inl rfl
    | succ w => exact .inr ⟨w, rfl⟩
  · rw [hw]; rfl
  · have h : b.items = [] := by
      rcases h with h | h
      · exact h
      · omega
    rw [hw, List.range_succ_eq_map, List.foldlM_cons, h]
    rfl

/-- two points of a buffer for a time and a state of two entries -/
example : getAsMatrix (⟨[[[3], [30]], [[2], [20]]], 5, 2⟩ : Buf (List ℚ)) = .ok [[2, 3], [20, 30]] := by
  decide +kernel

/-- times and states of different sizes cannot be put side by side -/
example : getAsMatrix (⟨[[[3], [30, 31]], [[2], [20, 21]]], 5, 2⟩ : Buf (List ℚ)) = .error .value := by
  decide +kernel

/-! ### the transient -/

variable {K : Type} [Field K] [LinearOrder K] {m : Nat}

/-- the states of the analysis, the initial one first -/
def states (x0 : Fin m → K) (ps : List (Entry K m)) : List (Fin m → K) := x0 :: ps.map (·.x)

/-- what the buffer holds: the last `p` states -/
def Has (p : Nat) (xs : List (Fin m → K)) (b : Buf (List K)) : Prop :=
  b.length = p ∧ b.width = 1 ∧ b.items = (xs.reverse.take p).map fun x => [List.ofFn x]

omit [Field K] [LinearOrder K] in
theorem has_push {p : Nat} {xs : List (Fin m → K)} {b : Buf (List K)} (h : Has p xs b) (x : Fin m → K) : Has p (xs ++ [x]) (push b x) := by
  obtain ⟨h1, h2, h3⟩ := h
  have e : add b [List.ofFn x] = some { b with items := ([List.ofFn x] :: b.items).take b.length } := by
    unfold add
    rw [if_neg (by simp [h2])]
    simp only
    congr 2
    split
    · rfl
    · rename_i k
      exact (List.take_of_length_le (by simpa using k)).symm
  refine ⟨by rw [push, e]; exact h1, by rw [push, e]; exact h2, ?_⟩
  rw [push, e]
  simp only [Option.getD_some, h1, h3, List.reverse_append, List.reverse_singleton, List.singleton_append]
  cases p with
  | zero => rfl
  | succ p =>
    simp only [List.take_succ_cons, List.map_cons, List.cons.injEq, true_and]
    rw [← List.map_take, List.take_take, Nat.min_eq_left (Nat.le_succ p)]

omit [Field K] [LinearOrder K] in
theorem has_start (p : Nat) (x0 : Fin m → K) : Has p (states x0 []) (push (init p 1) x0) := by
  have : Has p ([] : List (Fin m → K)) (init p 1) := ⟨rfl, rfl, by simp [init]⟩
  exact has_push this x0

omit [Field K] [LinearOrder K] in
/-- the matrix of a buffer of states -/
theorem has_matrix {p : Nat} (hp : 0 < p) {xs : List (Fin m → K)} (hx : xs ≠ []) {b : Buf (List K)} (h : Has p xs b) :
    getAsMatrix b = .ok [(((xs.reverse.take p).reverse).map fun x => List.ofFn x).flatten] := by
  obtain ⟨h1, h2, h3⟩ := h
  rw [C220_matrix (n := m) (by omega)]
  · rw [h2, h3]
    simp only [List.range_one, List.map_cons, List.map_nil, ← List.map_reverse, List.map_map]
    rfl
  · rw [h3]
    simp only [ne_eq, List.map_eq_nil_iff, List.take_eq_nil_iff, List.reverse_eq_nil_iff, not_or]
    exact ⟨by omega, hx⟩
  · intro v hv e he
    rw [h3] at he
    obtain ⟨x, -, rfl⟩ := List.mem_map.1 he
    have : v = 0 := by omega
    subst this
    simp

/-- a pass without step control records a point or ends the loop -/
theorem pass_keep {c : Cfg K} (hc : c.control = false) {n : Net K m} {x0 : Fin m → K} {s s' : St K m} {h : K}
    (hp : pass c n x0 s (.keep h) = .running s') : ∃ e : Entry K m, e.t = s.time + s.tstep ∧ s'.time = s.time + s.tstep ∧ s'.tstep = h ∧
      s'.iter = s.iter + 1 ∧ s'.x = some e.x ∧ s'.points = s.points ++ [e] := by
  unfold pass at hp
  split at hp
  · cases hp
  · split at hp
    · simp only [Status.running.injEq] at hp
      subst hp
      exact ⟨_, rfl, rfl, rfl, rfl, rfl, rfl⟩
    · rw [hc] at hp
      simp at hp
    · cases hp

/-- what the loop returns -/
theorem loop_done {c : Cfg K} (hc : c.control = false) {n : Net K m} {x0 : Fin m → K} {t0 tstop h : K} {p : Nat} (hp : 0 < p)
    (k : Nat) (s : St K m) (b : Buf (List K)) (hb : Has p (states x0 s.points) b) (ht : s.time = t0 + s.iter * h) (hh : s.tstep = h)
    (hi : s.iter = s.points.length) (he : ∀ j e, s.points[j]? = some e → e.t = t0 + (j + 1 : Nat) * h)
    (hlt : ∀ j < s.iter, t0 + (j : K) * h < tstop) {ps : List (Entry K m)} {cols : List (List K)}
    (hd : loop c n x0 tstop k s b = .done ps cols) :
    cols = [((((states x0 ps).reverse.take p).reverse).map fun x => List.ofFn x).flatten] ∧
      (∀ j e, ps[j]? = some e → e.t = t0 + (j + 1 : Nat) * h) ∧ (∀ j < ps.length, t0 + (j : K) * h < tstop) ∧
      ¬ t0 + (ps.length : K) * h < tstop ∧ 0 < ps.length ∧
      ∃ s' N, run c n x0 (List.replicate N (.keep h)) s = .running s' ∧ s'.points = ps := by
  have fin : ¬ s.time < tstop → finish s b = .done ps cols →
      cols = [((((states x0 ps).reverse.take p).reverse).map fun x => List.ofFn x).flatten] ∧
      (∀ j e, ps[j]? = some e → e.t = t0 + (j + 1 : Nat) * h) ∧ (∀ j < ps.length, t0 + (j : K) * h < tstop) ∧
      ¬ t0 + (ps.length : K) * h < tstop ∧ 0 < ps.length ∧
      ∃ s' N, run c n x0 (List.replicate N (.keep h)) s = .running s' ∧ s'.points = ps := by
    intro hn hf
    unfold finish at hf
    rw [has_matrix hp (by simp [states]) hb] at hf
    split at hf
    · cases hf
    · rename_i h0
      simp only [Out.done.injEq] at hf
      obtain ⟨rfl, rfl⟩ := hf
      refine ⟨rfl, he, by rw [← hi]; exact hlt, by rw [← hi, ← ht]; exact hn, by omega, s, 0, rfl, rfl⟩
  induction k generalizing s b with
  | zero =>
    unfold loop at hd
    split at hd
    · cases hd
    · rename_i hn
      exact fin hn hd
  | succ k ih =>
    unfold loop at hd
    split at hd
    · rename_i hl
      split at hd
      · rename_i s' hs'
        obtain ⟨e, e1, e2, e3, e4, e5, e6⟩ := pass_keep hc hs'
        rw [e5, Option.getD_some] at hd
        have hb' : Has p (states x0 s'.points) (push b e.x) := by
          have := has_push hb e.x
          rwa [show states x0 s.points ++ [e.x] = states x0 s'.points by simp [states, e6]] at this
        have ht' : s'.time = t0 + s'.iter * h := by rw [e2, ht, hh, e4]; push_cast; ring
        have hi' : s'.iter = s'.points.length := by rw [e4, e6, hi]; simp
        have he' : ∀ j e, s'.points[j]? = some e → e.t = t0 + (j + 1 : Nat) * h := by
          intro j f hf
          rw [e6] at hf
          rcases Nat.lt_trichotomy j s.points.length with q | q | q
          · rw [List.getElem?_append_left q] at hf
            exact he j f hf
          · subst q
            simp only [List.getElem?_concat_length, Option.some.injEq] at hf
            subst hf
            rw [e1, ht, hh, hi]; push_cast; ring
          · rw [List.getElem?_eq_none (by simp; omega)] at hf
            cases hf
        have hlt' : ∀ j < s'.iter, t0 + (j : K) * h < tstop := by
          intro j hj
          rcases Nat.lt_or_ge j s.iter with q | q
          · exact hlt j q
          · have : j = s.iter := by omega
            rw [this, ← ht]; exact hl
        obtain ⟨a1, a2, a3, a4, a5, s2, N, a6, a7⟩ := ih s' _ hb' ht' (by rw [e3, hh]) hi' he' hlt' hd (by
          intro hn hf
          unfold finish at hf
          rw [has_matrix hp (by simp [states]) hb'] at hf
          split at hf
          · cases hf
          · simp only [Out.done.injEq] at hf
            obtain ⟨rfl, rfl⟩ := hf
            exact ⟨rfl, he', by rw [← hi']; exact hlt', by rw [← hi', ← ht']; exact hn, by omega, s', 0, rfl, rfl⟩)
        refine ⟨a1, a2, a3, a4, a5, s2, N + 1, ?_, a7⟩
        rw [List.replicate_succ, run, ← hh, hs']
        simp only
        rw [hh]; exact a6
      · cases hd
      · cases hd
    · rename_i hn
      exact fin hn hd

variable [IsStrictOrderedRing K]

/-- C220: a transient analysis with a fixed step that is asked for the last `p` points returns the last `p` states below each other,
the oldest first; the initial state is one of them. The points are `h` apart, the first that is not before `tstop` is the last. -/
theorem C220_transient {c : Cfg K} (hc : c.control = false) {n : Net K m} {x0 : Fin m → K} {t0 tstop h : K} {p : Nat} (hp : 0 < p)
    {fuel : Nat} {ps : List (Entry K m)} {cols : List (List K)} (hd : transient c n x0 t0 h tstop p fuel = .done ps cols) :
    cols = [((((x0 :: ps.map (·.x)).reverse.take p).reverse).map fun x => List.ofFn x).flatten] ∧
      (∀ j e, ps[j]? = some e → e.t = t0 + (j + 1 : Nat) * h) ∧ (∀ j < ps.length, t0 + (j : K) * h < tstop) ∧
      ¬ t0 + (ps.length : K) * h < tstop ∧ 0 < ps.length ∧
      ∃ s' N, run c n x0 (List.replicate N (.keep h)) (start c t0 h x0) = .running s' ∧ s'.points = ps :=
  loop_done hc hp fuel _ _ (has_start p x0) (by simp [start]) rfl rfl (by simp [start]) (by simp [start]) hd

omit [Field K] [LinearOrder K] [IsStrictOrderedRing K] in
/-- a block of states put below each other -/
theorem block (l : List (Fin m → K)) (i : Nat) (x : Fin m → K) (h : l[i]? = some x) :
    (((l.map fun x => List.ofFn x).flatten.take ((i + 1) * m)).drop (i * m)) = List.ofFn x := by
  induction l generalizing i with
  | nil => simp at h
  | cons a l ih =>
    rw [List.map_cons, List.flatten_cons]
    cases i with
    | zero =>
      simp only [List.getElem?_cons_zero, Option.some.injEq] at h
      subst h
      rw [Nat.zero_mul, List.drop_zero, Nat.zero_add, Nat.one_mul]
      exact List.take_left' (by simp)
    | succ i =>
      rw [List.getElem?_cons_succ] at h
      rw [← ih i h]
      have e1 : (i + 1 + 1) * m = (List.ofFn a).length + (i + 1) * m := by rw [List.length_ofFn]; ring
      have e2 : (i + 1) * m = (List.ofFn a).length + i * m := by rw [List.length_ofFn]; ring
      rw [e1, List.take_length_add_append, e2, List.drop_length_add_append]

/-- C220: the transient at the beginning of the shooting method takes ten times as many steps as there are points. Point `i` of the
start is the state that it found at `(9 points + i + 1) step`. -/
theorem C220_initial {c : Cfg K} (hc : c.control = false) {n : Net K m} {h : K} (hh : 0 < h) {points : Nat} (hp : 0 < points)
    {fuel : Nat} {ps : List (Entry K m)} {cols : List (List K)} (hd : initial c n h points fuel = .done ps cols) :
    ps.length = 10 * points ∧ (guess m points cols).length = points ∧
      (∃ s, run c n 0 (List.replicate (10 * points) (.keep h)) (start c 0 h 0) = .running s ∧ s.points = ps) ∧
      ∀ i < points, ∃ e, ps[9 * points + i]? = some e ∧ e.t = (9 * points + i + 1 : Nat) * h ∧
        (guess m points cols)[i]? = some (List.ofFn e.x) := by
  obtain ⟨h1, h2, h3, h4, h5, s, N, h6, h7⟩ := C220_transient hc hp hd
  have hl : ps.length = 10 * points := by
    rw [zero_add, not_lt, mul_le_mul_iff_of_pos_right hh] at h4
    have q1 : 10 * points ≤ ps.length := by exact_mod_cast h4
    by_contra hne
    have := h3 (10 * points) (by omega)
    rw [zero_add, mul_lt_mul_iff_of_pos_right hh] at this
    push_cast at this
    exact lt_irrefl _ this
  have hN : ∀ (N : Nat) (s s' : St K m), run c n 0 (List.replicate N (.keep h)) s = .running s' → s'.points.length = s.points.length + N := by
    intro N
    induction N with
    | zero => intro s s' k; simp only [List.replicate_zero, run, Status.running.injEq] at k; rw [k]; rfl
    | succ N ih =>
      intro s s' k
      rw [List.replicate_succ, run] at k
      split at k
      · rename_i s2 hs2
        obtain ⟨e, -, -, -, -, -, e6⟩ := pass_keep hc hs2
        rw [ih s2 s' k, e6, List.length_append, List.length_singleton]; omega
      · rename_i hne
        exact absurd k (by intro k; exact hne _ k)
  have hN' : N = 10 * points := by
    have := hN N _ _ h6
    rw [h7, hl] at this
    simp only [start, List.length_nil] at this
    omega
  refine ⟨hl, by simp [guess], ⟨s, by rw [← hN']; exact h6, h7⟩, fun i hi => ?_⟩
  have hlt : 9 * points + i < ps.length := by omega
  refine ⟨ps[9 * points + i], List.getElem?_eq_getElem hlt, ?_, ?_⟩
  · rw [h2 _ _ (List.getElem?_eq_getElem hlt), zero_add]
  · rw [guess, List.getElem?_map, List.getElem?_range hi, Option.map_some, h1]
    congr 1
    refine block _ i _ ?_
    rw [List.reverse_take, List.reverse_reverse, List.length_reverse, List.length_cons, List.length_map, hl, List.getElem?_drop,
      show 10 * points + 1 - points + i = (9 * points + i) + 1 by omega, List.getElem?_cons_succ, List.getElem?_map,
      List.getElem?_eq_getElem hlt, Option.map_some]

omit [IsStrictOrderedRing K] in
theorem loop_ends {c : Cfg K} (hc : c.control = false) {n : Net K m} {x0 : Fin m → K} {tstop h : K} (k : Nat) (s : St K m)
    (b : Buf (List K)) (hh : s.tstep = h) (hk : ¬ s.time + k * h < tstop) : loop c n x0 tstop k s b ≠ .more := by
  have fin : ∀ (s : St K m) (b : Buf (List K)), finish s b ≠ .more := by
    intro s b
    unfold finish
    split
    · simp
    · split <;> simp
  induction k generalizing s b with
  | zero =>
    unfold loop
    rw [if_neg (by simpa using hk)]
    exact fin s b
  | succ k ih =>
    unfold loop
    split
    · split
      · rename_i s' hs'
        obtain ⟨e, -, e2, e3, -⟩ := pass_keep hc hs'
        refine ih s' _ (by rw [e3, hh]) ?_
        rw [e2, hh]
        have : s.time + h + (k : K) * h = s.time + ((k + 1 : Nat) : K) * h := by push_cast; ring
        rwa [this]
      · simp
      · simp
    · exact fin s b

omit [IsStrictOrderedRing K] in
/-- C220: the loop ends: ten times the points are enough. -/
theorem C220_ends {c : Cfg K} (hc : c.control = false) (n : Net K m) (h : K) (points : Nat) :
    initial c n h points (10 * points) ≠ .more := by
  refine loop_ends hc (h := h) _ _ _ rfl ?_
  simp [start]

/-- C220: for a linear circuit whose matrices of both formulas are regular the transient finds all its points. -/
theorem C220_regular {c : Cfg K} (hc : c.control = false) (hm : c.meth = .trap) (hlen : bufferLen c.meth c.control = .ok c.len)
    (ho : Plain c.o) (hstd : c.o.meth.std = true) {n : Net K m} (hl : n.nonlinear = false) (hk : n.locked = []) {h : K} (hh : 0 < h)
    (hd1 : (n.mna + (1 / h) • n.D + gminMat n.nn n.gmin).det ≠ 0) (hd2 : (n.mna + (2 / h) • n.D + gminMat n.nn n.gmin).det ≠ 0)
    {points : Nat} (hp : 0 < points) : ∃ ps cols, initial c n h points (10 * points) = .done ps cols := by
  have hlen : c.len = 1 := by
    rw [hm, hc] at hlen
    have : bufferLen .trap false = .ok 1 := rfl
    rw [this] at hlen
    exact (Except.ok.inj hlen).symm
  have step : ∀ s : St K m, s.tstep = h → (∃ e, s.buf = [e] ∧ (s.iter ≠ 0 → e.dx.isNone = false)) →
      ∃ s', pass c n 0 s (.keep h) = .running s' ∧ ∃ e, s'.buf = [e] ∧ (s'.iter ≠ 0 → e.dx.isNone = false) := by
    rintro s hs ⟨e, hb, he⟩
    obtain ⟨f, hf, hc1⟩ : ∃ f, formula c.meth c.control s.iter s.buf s.tstep = .ok f ∧ (f.c1 = 1 / h ∨ f.c1 = 2 / h) := by
      rw [hm, hc, hb, hs]
      unfold formula
      have hfi : firstIters .trap = 1 := rfl
      rw [hfi]
      by_cases h0 : s.iter < 1
      · simp only [if_pos h0, eulerDf, List.length_singleton, one_ne_zero, if_false, Bool.false_and]
        exact ⟨_, rfl, .inl rfl⟩
      · simp only [if_neg h0, Meth.df, trapDf, he (by omega), Bool.false_and, Bool.false_eq_true, if_false]
        exact ⟨_, rfl, .inr rfl⟩
    have hd : (n.mna + f.c1 • n.D + gminMat n.nn n.gmin).det ≠ 0 := by
      rcases hc1 with k | k <;> rw [k] <;> assumption
    obtain ⟨z, h1, -⟩ := dcSolve_regular (c := n.at f (s.time + s.tstep)) ho hstd ⟨hl, hk⟩ n.gmin hd (some (startX c 0 s f)) 63
    refine ⟨{ time := s.time + s.tstep, tstep := h, iter := s.iter + 1, x := some z, buf := ((⟨s.time + s.tstep, z, some (f.c1 • z + f.c0)⟩ : Entry K m) :: s.buf).take c.len, points := s.points ++ [⟨s.time + s.tstep, z, some (f.c1 • z + f.c0)⟩] }, ?_, ?_⟩
    · unfold pass
      rw [hf]
      simp only
      rw [h1]
    · exact ⟨⟨s.time + s.tstep, z, some (f.c1 • z + f.c0)⟩, by simp only [hlen, List.take_succ_cons, List.take_zero], fun _ => rfl⟩
  have key : ∀ (k : Nat) (s : St K m) (b : Buf (List K)) (xs : List (Fin m → K)), Has points xs b → xs ≠ [] → s.tstep = h →
      (∃ e, s.buf = [e] ∧ (s.iter ≠ 0 → e.dx.isNone = false)) → (s.iter = 0 → s.time < 10 * (points : K) * h ∧ k ≠ 0) →
      ¬ s.time + k * h < 10 * (points : K) * h → ∃ ps cols, loop c n 0 (10 * (points : K) * h) k s b = .done ps cols := by
    intro k
    have fin : ∀ (s : St K m) (b : Buf (List K)) (xs : List (Fin m → K)), Has points xs b → xs ≠ [] → s.iter ≠ 0 →
        ∃ ps cols, finish s b = .done ps cols := by
      intro s b xs hb hx hi
      refine ⟨s.points, [(((xs.reverse.take points).reverse).map fun x => List.ofFn x).flatten], ?_⟩
      unfold finish
      rw [if_neg hi, has_matrix hp hx hb]
    induction k with
    | zero =>
      intro s b xs hb hx hs hbuf h0 hn
      unfold loop
      rw [if_neg (by simpa using hn)]
      exact fin s b xs hb hx fun k => (h0 k).2 rfl
    | succ k ih =>
      intro s b xs hb hx hs hbuf h0 hn
      unfold loop
      split
      · obtain ⟨s', h1, h2⟩ := step s hs hbuf
        obtain ⟨e, -, e2, e3, e4, -, -⟩ := pass_keep hc h1
        rw [hs, h1]
        refine ih s' _ _ (has_push hb _) (by simp) e3 h2 (fun k => by omega) ?_
        rw [e2, hs]
        have : s.time + h + (k : K) * h = s.time + ((k + 1 : Nat) : K) * h := by push_cast; ring
        rwa [this]
      · rename_i hlt
        refine fin s b xs hb hx fun k => hlt (h0 k).1
  refine key _ _ _ _ (has_start points 0) (by simp [states]) rfl ⟨⟨0, 0, none⟩, by simp [start, hlen], fun k => absurd rfl k⟩
    (fun _ => ⟨?_, by omega⟩) (by simp [start])
  show (0 : K) < _
  have : (0 : K) < points := by exact_mod_cast hp
  positivity

/-- Every point of the start is a state of the transient at a time that differs from the time of the point, `i step`
(shooting.py:288), by a number of periods. The period is `(points - 1) step` (utilities.py:583). -/
def InPhase (points : Nat) (h : K) (ps : List (Entry K m)) (cols : List (List K)) : Prop :=
  ∀ i < points, ∃ e ∈ ps, (guess m points cols)[i]? = some (List.ofFn e.x) ∧
    ∃ k : ℤ, e.t = (i : K) * h + k * (((points - 1 : Nat) : K) * h)

/-- C220: the states that start the iteration are in phase if the number of steps in a period divides ten. Missing: other numbers of
points, see the refutation. -/
theorem C220_phase_partial {c : Cfg K} (hc : c.control = false) {n : Net K m} {h : K} (hh : 0 < h) {points : Nat} (hp : 1 < points)
    (hd : points - 1 ∣ 10) {fuel : Nat} {ps : List (Entry K m)} {cols : List (List K)} (hi : initial c n h points fuel = .done ps cols) :
    InPhase points h ps cols := by
  intro i hlt
  obtain ⟨-, -, -, h4⟩ := C220_initial hc hh (by omega) hi
  obtain ⟨e, he, ht, hg⟩ := h4 i hlt
  refine ⟨e, List.mem_of_getElem? he, hg, ?_⟩
  obtain ⟨q, hq⟩ := hd
  refine ⟨9 + q, ?_⟩
  have e : (9 * points + i + 1 : Nat) = i + (9 + q) * (points - 1) := by
    obtain ⟨w, rfl⟩ : ∃ w, points = w + 1 := ⟨points - 1, by omega⟩
    simp only [Nat.add_sub_cancel] at hq ⊢
    nlinarith
  rw [ht, e]
  push_cast
  ring

/-- a source with the period 99 at a resistor of one ohm -/
def saw : Net ℚ 1 :=
  { mna := !![1], D := !![0], N := ![0], Tt := fun t => ![-Int.fract (t / 99)], nn := 1, gmin := 0, nonlinear := false
    J := fun _ => 0, Tx := fun _ => 0, locked := [] }

/-- the settings of the shooting method, without Gmin and source stepping -/
def cfg : Cfg ℚ := ⟨⟨⟨true, false, false, 27⟩, dflt.newton, dflt.tol, dflt.maxit⟩, .trap, false, 1⟩

theorem saw_initial {points : Nat} (hp : 0 < points) : ∃ ps cols, initial cfg saw 1 points (10 * points) = .done ps cols :=
  C220_regular (c := cfg) rfl rfl rfl ⟨rfl, by decide⟩ rfl (n := saw) rfl rfl one_pos
    (by show (!![1] + (1 / 1 : ℚ) • !![0] + gminMat 1 0 : Matrix (Fin 1) (Fin 1) ℚ).det ≠ 0; rw [floating_mat]; norm_num)
    (by show (!![1] + (2 / 1 : ℚ) • !![0] + gminMat 1 0 : Matrix (Fin 1) (Fin 1) ℚ).det ≠ 0; rw [floating_mat]; norm_num) hp

/-- C220: with the default number of points (100) the states that start the iteration are ten steps late. -/
theorem C220_phase_refuted : ∃ ps cols, initial cfg saw 1 100 (10 * 100) = .done ps cols ∧ ¬ InPhase 100 1 ps cols := by
  obtain ⟨ps, cols, h⟩ := saw_initial (points := 100) (by norm_num)
  refine ⟨ps, cols, h, fun hi => ?_⟩
  obtain ⟨-, -, ⟨s, h1, h2⟩, h3⟩ := C220_initial rfl one_pos (by norm_num) h
  have hx : ∀ e ∈ ps, e.x = ![Int.fract (e.t / 99)] := by
    intro e he
    have := C121_points_partial cfg ⟨rfl, by decide⟩ rfl rfl saw rfl rfl 0 1 0 (List.replicate (10 * 100) (.keep 1)) e (by
      rw [h1]; show e ∈ s.points; rw [h2]; exact he)
    obtain ⟨dx, -, h5⟩ := this
    have h6 := congrFun h5 0
    have e0 : gminMat (m := 1) saw.nn saw.gmin = !![0] := floating_mat 0
    rw [e0] at h6
    simp [saw, dotProduct] at h6
    funext i
    fin_cases i
    simp
    linarith
  obtain ⟨e, he, ht, hg⟩ := h3 0 (by norm_num)
  obtain ⟨e', he', hg', k, hk⟩ := hi 0 (by norm_num)
  rw [hg] at hg'
  have e1 : e.x = e'.x := List.ofFn_injective (Option.some.inj hg')
  rw [hx e (List.mem_of_getElem? he), hx e' he', ht, hk] at e1
  have e2 := congrFun e1 0
  simp only [Matrix.cons_val_zero] at e2
  norm_num at e2

omit [IsStrictOrderedRing K] in
/-- C220: an analysis that is asked for no points returns nothing. -/
theorem C220_none {c : Cfg K} (n : Net K m) (x0 : Fin m → K) (t0 h tstop : K) (fuel : Nat) (ps : List (Entry K m)) (cols : List (List K)) :
    transient c n x0 t0 h tstop 0 fuel ≠ .done ps cols := by
  have fin : ∀ (s : St K m) (b : Buf (List K)) (xs : List (Fin m → K)), Has 0 xs b → finish s b ≠ .done ps cols := by
    intro s b xs hb
    unfold finish
    rw [C220_matrix_empty (.inl (by rw [hb.2.2]; simp))]
    split <;> simp
  have key : ∀ (k : Nat) (s : St K m) (b : Buf (List K)) (xs : List (Fin m → K)), Has 0 xs b → loop c n x0 tstop k s b ≠ .done ps cols := by
    intro k
    induction k with
    | zero =>
      intro s b xs hb
      unfold loop
      split
      · simp
      · exact fin s b xs hb
    | succ k ih =>
      intro s b xs hb
      unfold loop
      split
      · split
        · exact ih _ _ _ (has_push hb _)
        · simp
        · simp
      · exact fin s b xs hb
  exact key fuel _ _ _ (has_start 0 x0)

omit [IsStrictOrderedRing K] in
/-- C220: an analysis that ends when it starts raises (the average of its steps is computed). -/
theorem C220_no_time {c : Cfg K} (n : Net K m) (x0 : Fin m → K) (t0 h : K) (p fuel : Nat) : transient c n x0 t0 h t0 p fuel = .raised := by
  unfold transient
  have : finish (start c t0 h x0) (push (init p 1) x0) = .raised := by simp [finish, start]
  cases fuel with
  | zero => rw [loop, if_neg (by simp [start]), this]
  | succ k => rw [loop, if_neg (by simp [start]), this]

/-- six points: a start in phase -/
example : ∃ ps cols, initial cfg saw 1 6 60 = .done ps cols ∧ InPhase 6 1 ps cols := by
  obtain ⟨ps, cols, h⟩ := saw_initial (points := 6) (by norm_num)
  exact ⟨ps, cols, h, C220_phase_partial rfl one_pos (by norm_num) (by norm_num) h⟩

end Verif.ShootInit
