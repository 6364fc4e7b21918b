import Verif.Model.PlotFrame
import Mathlib.Tactic.Linarith
import Mathlib.Tactic.Ring
import Mathlib.Data.Rat.Floor
import Mathlib.Data.List.Induction

/-!
# C200: the frame of a plot

The label of the vertical axis shows the unit of every curve, once; everything drawn lies inside of the frame.
-/

namespace Verif.PlotFrame

/-! ### Units -/

/-- the units shown so far -/
structure Shown (cs : List (Txt × Txt)) (s : List (Char × Txt)) : Prop where
  once : (s.map Prod.snd).Nodup
  all : ∀ c ∈ cs, c.2 ∈ s.map Prod.snd
  only : (s.map Prod.snd).Sublist (cs.map Prod.snd)
  initial : ∀ p ∈ s, ∃ pre c post, cs = pre ++ c :: post ∧ c.2 = p.2 ∧ p.2 ∉ pre.map Prod.snd ∧ (c.1.filter (· ≠ '|')).head? = some p.1

theorem shown_fold (cs : List (Txt × Txt)) : ∀ s, cs.foldlM unitStep [] = .ok s → Shown cs s := by
  induction cs using List.reverseRecOn with
  | nil =>
    intro s h
    cases h
    exact ⟨List.nodup_nil, by simp, List.Sublist.refl _, by simp⟩
  | append_singleton cs c ih =>
    intro s h
    rw [List.foldlM_append] at h
    rcases h0 : cs.foldlM unitStep [] with e | s0
    · rw [h0] at h; cases h
    rw [h0] at h
    rw [show (Except.ok s0 >>= fun i => List.foldlM unitStep i [c]) = List.foldlM unitStep s0 [c] from rfl, List.foldlM_cons] at h
    simp only [List.foldlM_nil, bind_pure] at h
    obtain ⟨a1, a2, a3, a4⟩ := ih s0 h0
    unfold unitStep at h
    split_ifs at h with hm
    · cases h
      refine ⟨a1, ?_, ?_, ?_⟩
      · intro x hx
        rcases List.mem_append.1 hx with hx | hx
        · exact a2 x hx
        · rw [List.mem_singleton.1 hx]; exact hm
      · rw [List.map_append]
        exact a3.trans (List.sublist_append_left _ _)
      · intro p hp
        obtain ⟨pre, d, post, rfl, h1, h2, h3⟩ := a4 p hp
        exact ⟨pre, d, post ++ [c], by simp, h1, h2, h3⟩
    · split at h
      · cases h
      · rename_i x r hx
        cases h
        refine ⟨?_, ?_, ?_, ?_⟩
        · rw [List.map_append, List.map_singleton, List.nodup_append]
          refine ⟨a1, by simp, ?_⟩
          intro y hy z hz
          rw [List.mem_singleton.1 hz]
          rintro rfl
          exact hm hy
        · intro y hy
          rw [List.map_append, List.mem_append]
          rcases List.mem_append.1 hy with hy | hy
          · exact .inl (a2 y hy)
          · right; rw [List.mem_singleton.1 hy]; simp
        · rw [List.map_append, List.map_append]
          exact a3.append (List.Sublist.refl _)
        · intro p hp
          rcases List.mem_append.1 hp with hp | hp
          · obtain ⟨pre, d, post, rfl, h1, h2, h3⟩ := a4 p hp
            exact ⟨pre, d, post ++ [c], by simp, h1, h2, h3⟩
          · rw [List.mem_singleton.1 hp]
            refine ⟨cs, c, [], rfl, rfl, ?_, by rw [hx]; rfl⟩
            intro hc
            obtain ⟨y, hy, e⟩ := List.mem_map.1 hc
            exact hm (e ▸ a2 y hy)

/-- `i [u]` -/
def cell (p : Char × Txt) : Txt := p.1 :: ' ' :: '[' :: p.2 ++ [']']

theorem pieces (s : List (Char × Txt)) (hs : s ≠ []) :
    (s.map piece).flatten = ((s.map cell).intersperse " , ".toList).flatten ++ " , ".toList := by
  induction s with
  | nil => exact absurd rfl hs
  | cons a r ih =>
    have ha : piece a = cell a ++ " , ".toList := by
      simp [piece, cell]
    rcases r with _ | ⟨b, r⟩
    · simp [ha]
    · have := ih (by simp)
      simp only [List.map_cons, List.flatten_cons, List.intersperse_cons_cons] at this ⊢
      rw [this, ha]
      simp only [List.append_assoc]

/-- C200: the label of the vertical axis is a list `i [u]` separated by commas: every unit of a curve is in it once, in the order
in which they come, with the initial of the first curve that has it. What is missing: an angle has the unit of the variable it is
the angle of (`C200_angle_refuted`). -/
theorem C200_units_partial {cs : List (Txt × Txt)} {l : Txt} (h : yLabel cs = .ok l) :
    ∃ s : List (Char × Txt), l = ((s.map cell).intersperse " , ".toList).flatten ∧ Shown cs s := by
  unfold yLabel at h
  rcases h0 : cs.foldlM unitStep [] with e | s
  · rw [h0] at h; cases h
  rw [h0] at h
  injection h with h
  refine ⟨s, ?_, shown_fold cs s h0⟩
  subst h
  rcases hs : s with _ | ⟨a, r⟩
  · rfl
  · rw [← hs, pieces s (by simp [hs])]
    rw [List.length_append, show (" , ".toList : Txt).length = 3 from rfl, Nat.add_sub_cancel, List.take_left']
    rfl

/-- C200: there is a label whenever the labels of all curves are more than bars. -/
theorem C200_label (cs : List (Txt × Txt)) (h : ∀ c ∈ cs, ∃ x ∈ c.1, x ≠ '|') : ∃ l, yLabel cs = .ok l := by
  suffices ∀ (cs : List (Txt × Txt)) (s : List (Char × Txt)), (∀ c ∈ cs, ∃ x ∈ c.1, x ≠ '|') → ∃ s', cs.foldlM unitStep s = .ok s' by
    obtain ⟨s, hs⟩ := this cs [] h
    unfold yLabel
    rw [hs]
    exact ⟨_, rfl⟩
  intro cs
  induction cs with
  | nil => intro s _; exact ⟨s, rfl⟩
  | cons c r ih =>
    intro s hc
    obtain ⟨x, hx, hb⟩ := hc c (List.mem_cons_self ..)
    have : ∃ s', unitStep s c = .ok s' := by
      unfold unitStep
      split_ifs
      · exact ⟨_, rfl⟩
      · have hx' : x ∈ c.1.filter (· ≠ '|') := List.mem_filter.2 ⟨hx, by simpa using hb⟩
        split
        · rename_i he
          rw [he] at hx'
          cases hx'
        · exact ⟨_, rfl⟩
    obtain ⟨s', h1⟩ := this
    obtain ⟨s'', h2⟩ := ih s' (fun y hy => hc y (List.mem_cons_of_mem _ hy))
    refine ⟨s'', ?_⟩
    rw [List.foldlM_cons, h1]
    exact h2

/-! ### Limits -/

variable {K : Type} [Field K] [LinearOrder K]

omit [Field K] in
theorem maxL_ok {l : List K} {a : K} (h : maxL l = .ok a) : a ∈ l ∧ ∀ x ∈ l, x ≤ a := by
  rcases l with _ | ⟨b, r⟩
  · cases h
  · injection h with h
    subst h
    have : ∀ (r : List K) (b : K), r.foldl max b ∈ b :: r ∧ ∀ x ∈ b :: r, x ≤ r.foldl max b := by
      intro r
      induction r with
      | nil => intro b; simp
      | cons c r ih =>
        intro b
        obtain ⟨h1, h2⟩ := ih (max b c)
        simp only [List.foldl_cons]
        constructor
        · rcases List.mem_cons.1 h1 with h | h
          · rw [h]
            rcases max_choice b c with e | e <;> rw [e] <;> simp
          · simp [h]
        · intro x hx
          have hm := h2 _ (List.mem_cons_self ..)
          rcases List.mem_cons.1 hx with rfl | hx
          · exact (le_max_left _ _).trans hm
          · rcases List.mem_cons.1 hx with rfl | hx
            · exact (le_max_right _ _).trans hm
            · exact h2 x (List.mem_cons_of_mem _ hx)
    exact this r b

omit [Field K] in
theorem minL_ok {l : List K} {a : K} (h : minL l = .ok a) : a ∈ l ∧ ∀ x ∈ l, a ≤ x := by
  rcases l with _ | ⟨b, r⟩
  · cases h
  · injection h with h
    subst h
    have : ∀ (r : List K) (b : K), r.foldl min b ∈ b :: r ∧ ∀ x ∈ b :: r, r.foldl min b ≤ x := by
      intro r
      induction r with
      | nil => intro b; simp
      | cons c r ih =>
        intro b
        obtain ⟨h1, h2⟩ := ih (min b c)
        simp only [List.foldl_cons]
        constructor
        · rcases List.mem_cons.1 h1 with h | h
          · rw [h]
            rcases min_choice b c with e | e <;> rw [e] <;> simp
          · simp [h]
        · intro x hx
          have hm := h2 _ (List.mem_cons_self ..)
          rcases List.mem_cons.1 hx with rfl | hx
          · exact hm.trans (min_le_left _ _)
          · rcases List.mem_cons.1 hx with rfl | hx
            · exact hm.trans (min_le_right _ _)
            · exact h2 x (List.mem_cons_of_mem _ hx)
    exact this r b

/-- all values of the curves -/
def values (cs : List (Curve K)) : List K := (cs.map Curve.y).flatten

omit [Field K] in
theorem range_fold (cs : List (Curve K)) : ∀ s, cs.foldlM rangeStep none = .ok s →
    (s = none ↔ cs = []) ∧ ∀ hi lo, s = some (hi, lo) → hi ∈ values cs ∧ lo ∈ values cs ∧ ∀ x ∈ values cs, lo ≤ x ∧ x ≤ hi := by
  induction cs using List.reverseRecOn with
  | nil =>
    intro s h
    cases h
    simp
  | append_singleton cs c ih =>
    intro s h
    rw [List.foldlM_append] at h
    rcases h0 : cs.foldlM rangeStep none with e | s0
    · rw [h0] at h; cases h
    rw [h0] at h
    rw [show (Except.ok s0 >>= fun i => List.foldlM rangeStep i [c]) = List.foldlM rangeStep s0 [c] from rfl, List.foldlM_cons] at h
    simp only [List.foldlM_nil, bind_pure] at h
    obtain ⟨a1, a2⟩ := ih s0 h0
    have hval : values (cs ++ [c]) = values cs ++ c.y := by simp [values]
    unfold rangeStep at h
    rcases h1 : maxL c.y with e | hi
    · rw [h1] at h; cases h
    rw [h1] at h
    rcases h2 : minL c.y with e | lo
    · rw [h2] at h; cases h
    rw [h2] at h
    obtain ⟨b1, b2⟩ := maxL_ok h1
    obtain ⟨c1, c2⟩ := minL_ok h2
    rcases s0 with _ | ⟨ymax, ymin⟩
    · have h : s = some (hi, lo) := by injection h with h; exact h.symm
      subst h
      obtain rfl := a1.1 rfl
      refine ⟨by simp, ?_⟩
      rintro _ _ ⟨⟩
      rw [hval]
      exact ⟨by simp [b1], by simp [c1], fun x hx => by
        simp only [values, List.map_nil, List.flatten_nil, List.nil_append] at hx
        exact ⟨c2 x hx, b2 x hx⟩⟩
    · have h : s = some (if hi > ymax then hi else ymax, if lo < ymin then lo else ymin) := by injection h with h; exact h.symm
      subst h
      obtain ⟨d1, d2, d3⟩ := a2 _ _ rfl
      refine ⟨by simp, ?_⟩
      rintro _ _ ⟨⟩
      rw [hval]
      refine ⟨?_, ?_, ?_⟩
      · split_ifs
        · simp [b1]
        · simp [d1]
      · split_ifs
        · simp [c1]
        · simp [d2]
      · intro x hx
        rcases List.mem_append.1 hx with hx | hx
        · obtain ⟨e1, e2⟩ := d3 x hx
          constructor
          · split_ifs with h
            · exact h.le.trans e1
            · exact e1
          · split_ifs with h
            · exact e2.trans h.le
            · exact e2
        · have e1 := c2 x hx
          have e2 := b2 x hx
          constructor
          · split_ifs with h
            · exact e1
            · exact (not_lt.1 h).trans e1
          · split_ifs with h
            · exact e2
            · exact e2.trans (not_lt.1 h)

variable [IsStrictOrderedRing K]

/-- C200: everything drawn lies in the frame: there are a largest and a smallest value, and the limits are those with one
percent of their distance added on either side. -/
theorem C200_inside {cs : List (Curve K)} {l : K × K} (h : yLimits cs = .ok l) :
    ∃ hi lo, hi ∈ values cs ∧ lo ∈ values cs ∧ (∀ x ∈ values cs, lo ≤ x ∧ x ≤ hi) ∧ l.1 = lo - (hi - lo) / 100 ∧
      l.2 = hi + (hi - lo) / 100 ∧ ∀ x ∈ values cs, l.1 ≤ x ∧ x ≤ l.2 := by
  unfold yLimits at h
  rcases h0 : cs.foldlM rangeStep none with e | s
  · rw [h0] at h; cases h
  rw [h0] at h
  rcases s with _ | ⟨hi, lo⟩
  · cases h
  · have h : l = (lo - (hi - lo) * (1 / 100), hi + (hi - lo) * (1 / 100)) := by injection h with h; exact h.symm
    subst h
    obtain ⟨h1, h2, h3⟩ := (range_fold cs _ h0).2 _ _ rfl
    have hd : 0 ≤ (hi - lo) * (1 / 100) := mul_nonneg (sub_nonneg.2 (h3 hi h1).1) (by norm_num)
    refine ⟨hi, lo, h1, h2, h3, by ring, by ring, fun x hx => ?_⟩
    obtain ⟨a, b⟩ := h3 x hx
    exact ⟨by simp only; linarith, by simp only; linarith⟩

omit [IsStrictOrderedRing K] in
/-- C200 refuted: a plot without curves is not empty: it raises TypeError, whatever the horizontal axis. -/
theorem C200_none_refuted {V : Type} (d : Draw V K) (res : Res V) (xlabel : Txt) (a : K) (x : List K) :
    plot d res xlabel (a :: x) [] = .error .type := rfl

omit [IsStrictOrderedRing K] in
/-- C200: the horizontal axis is logarithmic for frequencies and linear for all else, and it ends at the smallest and
largest points. -/
theorem C200_axis {V : Type} {d : Draw V K} {res : Res V} {xlabel : Txt} {x : List K} {ps : List (Txt × Option Txt)} {f : Frame K}
    (h : plot d res xlabel x ps = .ok f) :
    (f.xlog = true ↔ xlabel = ['f']) ∧ f.xlim.1 ∈ x ∧ f.xlim.2 ∈ x ∧ (∀ t ∈ x, f.xlim.1 ≤ t ∧ t ≤ f.xlim.2) ∧
    ps.mapM (curveOf d res) = .ok f.curves ∧ yLabel (f.curves.map fun c => (c.label, c.unit)) = .ok f.ylabel ∧
    yLimits f.curves = .ok f.ylim := by
  unfold plot at h
  rcases h1 : ps.mapM (curveOf d res) with e | cs
  · rw [h1] at h; cases h
  rw [h1] at h
  replace h : (do
    let yl ← yLabel (cs.map fun c => (c.label, c.unit))
    let hi ← maxL x
    let lo ← minL x
    let yr ← yLimits cs
    .ok ⟨cs, yl, decide (xlabel = ['f']), (lo, hi), yr⟩ : Except PErr (Frame K)) = .ok f := h
  rcases h2 : yLabel (cs.map fun c => (c.label, c.unit)) with e | yl
  · rw [h2] at h; cases h
  rcases h3 : maxL x with e | hi
  · rw [h2, h3] at h; cases h
  rcases h4 : minL x with e | lo
  · rw [h2, h3, h4] at h; cases h
  rcases h5 : yLimits cs with e | yr
  · rw [h2, h3, h4, h5] at h; cases h
  rw [h2, h3, h4, h5] at h
  have h : f = ⟨cs, yl, decide (xlabel = ['f']), (lo, hi), yr⟩ := by injection h with h; exact h.symm
  subst h
  obtain ⟨b1, b2⟩ := maxL_ok h3
  obtain ⟨c1, c2⟩ := minL_ok h4
  exact ⟨by simp, c1, b1, fun t ht => ⟨c2 t ht, b2 t ht⟩, rfl, h2, h5⟩

/-! ### Curves -/

omit [Field K] [LinearOrder K] [IsStrictOrderedRing K] in
/-- C200: `|name|` draws magnitudes, `arg(name)` angles, and other names the values. -/
theorem C200_data {V : Type} (d : Draw V K) (res : Res V) (n : Txt) (l : List V) (h : res.get n = some l) :
    dataPass d res ('|' :: n ++ ['|']) = .ok (l.map d.abs, res.units n) ∧
    dataPass d res ("arg(".toList ++ n ++ [')']) = .ok (l.map d.arg, res.units n) ∧
    (n ≠ [] → n.head? ≠ some '|' → n.take 4 ≠ "arg(".toList → dataPass d res n = .ok (l.map d.plain, res.units n)) := by
  refine ⟨?_, ?_, ?_⟩
  · have e : ((('|' :: n ++ ['|']) : Txt).drop 1).dropLast = n := by simp
    unfold dataPass
    rw [if_neg (by simp), if_pos ⟨rfl, List.getLast?_concat⟩, e, column, h]
  · have e : (("arg(".toList ++ n ++ [')'] : Txt).drop 4).dropLast = n := by
      show (n ++ [')']).dropLast = n
      simp
    unfold dataPass
    rw [if_neg (by simp), if_neg (by rintro ⟨h, -⟩; cases h), if_pos ⟨rfl, List.getLast?_concat⟩, e, column, h]
  · intro h1 h2 h3
    unfold dataPass
    rw [if_neg h1, if_neg (fun h => h2 h.1), if_neg (fun h => h3 h.1), column, h]

omit [LinearOrder K] [IsStrictOrderedRing K] in
/-- C200 refuted: the angle of a voltage is drawn as a voltage: the curve has the unit of the variable. -/
theorem C200_angle_refuted {V : Type} (d : Draw V K) (res : Res V) (n : Txt) (l : List V) (h : res.get n = some l)
    (hu : res.units n = ['V']) :
    ∃ c, curveOf d res ("arg(".toList ++ n ++ [')'], none) = .ok c ∧ c.y = l.map d.arg ∧ c.unit = ['V'] := by
  refine ⟨⟨l.map d.arg, "arg(".toList ++ n ++ [')'], ['V']⟩, ?_, rfl, rfl⟩
  unfold curveOf
  simp only
  rw [(C200_data d res n l h).2.1, hu]
  rfl

/-! ### Examples -/

/-- two voltages and a current; "arg" is the negative value here -/
def exRes : Res ℚ where
  get := fun n => if n = "Va".toList then some [1, 2] else if n = "Vb".toList then some [5, -1] else
    if n = "I(V1)".toList then some [0, 3] else none
  units := fun n => if n = "I(V1)".toList then ['A'] else ['V']

def exDraw : Draw ℚ ℚ := ⟨fun x => |x|, fun x => -x, id⟩

def Frame.shows (f : Frame ℚ) : List (List ℚ) × Txt × Bool × (ℚ × ℚ) × (ℚ × ℚ) := (f.curves.map Curve.y, f.ylabel, f.xlog, f.xlim, f.ylim)

/-- difference of voltages, magnitude and current: two units, largest value 4, smallest -3 -/
example : (plot exDraw exRes ['f'] [1, 10] [("Va".toList, some "Vb".toList), ("|Vb|".toList, none), ("I(V1)".toList, some [])]).toOption.map
    Frame.shows = some ([[-4, 3], [5, 1], [0, 3]], "V [V] , I [A]".toList, true, (1, 10), (-4 - 9 / 100, 5 + 9 / 100)) := by
  decide +kernel

/-- an angle with its unit, and no curves -/
example : (plot exDraw exRes ['t'] [1, 10] [("arg(Va)".toList, none)]).toOption.map Frame.shows =
    some ([[-1, -2]], "a [V]".toList, false, (1, 10), (-2 - 1 / 100, -1 + 1 / 100)) := by
  decide +kernel

example : ∀ c ∈ [("Va".toList, ['V']), ("|Vb|".toList, ['V'])], ∃ x ∈ c.1, x ≠ '|' := by decide +kernel

omit [Field K] [LinearOrder K] [IsStrictOrderedRing K] in
/-- C200: names that the results do not have are refused with `KeyError`. -/
theorem C200_missing {V : Type} (d : Draw V K) (res : Res V) (n : Txt) (h : res.get n = none) :
    dataPass d res ('|' :: n ++ ['|']) = .error .key ∧ dataPass d res ("arg(".toList ++ n ++ [')']) = .error .key ∧
    (n ≠ [] → n.head? ≠ some '|' → n.take 4 ≠ "arg(".toList → dataPass d res n = .error .key) := by
  refine ⟨?_, ?_, ?_⟩
  · have e : ((('|' :: n ++ ['|']) : Txt).drop 1).dropLast = n := by simp
    unfold dataPass
    rw [if_neg (by simp), if_pos ⟨rfl, List.getLast?_concat⟩, e, column, h]
  · have e : (("arg(".toList ++ n ++ [')'] : Txt).drop 4).dropLast = n := by
      show (n ++ [')']).dropLast = n
      simp
    unfold dataPass
    rw [if_neg (by simp), if_neg (by rintro ⟨h, -⟩; cases h), if_pos ⟨rfl, List.getLast?_concat⟩, e, column, h]
  · intro h1 h2 h3
    unfold dataPass
    rw [if_neg h1, if_neg (fun h => h2 h.1), if_neg (fun h => h3 h.1), column, h]

/-- C200: results without values cannot be drawn: `ValueError`. -/
theorem C200_empty {V : Type} (d : Draw V K) (res : Res V) (xlabel n : Txt) (u : Txt) (hu : res.units n = u) (c : Char) (r : Txt)
    (hn : n = c :: r) (hc : c ≠ '|' ∧ c ≠ 'a') (h : res.get n = some []) (x : List K) :
    plot d res xlabel x [(n, none)] = .error .value := by
  have hd : dataPass d res n = .ok ([], u) := by
    subst hn
    have h4 : (c :: r).take 4 ≠ "arg(".toList := by
      intro e
      have := congrArg List.head? e
      simp at this
      exact hc.2 this
    rw [dataPass, if_neg (by simp), if_neg (by simp [hc.1]), if_neg (fun e => h4 e.1), column, h, hu]
    rfl
  have hl : ∃ l, yLabel [(n, u)] = .ok l := C200_label _ (by
    intro p hp
    rw [List.mem_singleton] at hp
    subst hp
    exact ⟨c, by simp [hn], hc.1⟩)
  obtain ⟨l, hl⟩ := hl
  have hm : [(n, (none : Option Txt))].mapM (curveOf d res) = .ok [⟨[], n, u⟩] := by
    simp [curveOf, hd, bind, Except.bind, pure, Except.pure]
  have hy : yLimits [(⟨[], n, u⟩ : Curve K)] = .error .value := rfl
  cases x with
  | nil => simp [plot, hm, hl, maxL, bind, Except.bind]
  | cons a t => simp [plot, hm, hl, maxL, minL, hy, bind, Except.bind]

end Verif.PlotFrame
