import Verif.Model.PssRun
import Verif.Props.Mna

/-!
Properties C172 and C173, the sources: the periodic steady state analyses use the values that the transient uses.
-/

namespace Verif.PssRun
open Verif.Circuit

/-! ### The sources -/

section
variable {α : Type} [Field α]
open Verif.Mna

/-- the vector from `base` on is the vector of all unknowns without ground, and nothing before `base` is written -/
structure Follows (base : Nat) (T : Vec α) (s s' : TtState α) : Prop where
  eq : s.vEq = s'.vEq
  val : ∀ r, s.Tt (base + r) = s'.Tt (r + 1)
  old : ∀ i < base, s.Tt i = T i

theorem bf_step_follows {nv base : Nat} (hnv : 0 < nv) {T : Vec α} {time : α} {s s' : TtState α} (hf : Follows base T s s')
    (e : Elem α) :
    (∀ x, bfTtStep nv base time s e = .error x ↔ ttStep nv (some time) s' e = .error x) ∧
    ∀ q, bfTtStep nv base time s e = .ok q → ∃ q', ttStep nv (some time) s' e = .ok q' ∧ Follows base T q q' := by
  obtain ⟨h1, h2, h3⟩ := hf
  have bump : ∀ (q q' : TtState α), Follows base T q q' → ∀ b : Bool, Follows base T
      (if b then { q with vEq := q.vEq + 1 } else q) (if b then { q' with vEq := q'.vEq + 1 } else q') := by
    intro q q' hq b
    cases b
    · exact hq
    · exact ⟨by simp [hq.eq], hq.val, hq.old⟩
  have putF : ∀ v : α, Follows base T { s with Tt := Vec.put s.Tt (base + nv - 1 + s.vEq) v }
      { s' with Tt := Vec.put s'.Tt (nv + s'.vEq) v } := by
    intro v
    refine ⟨h1, fun r => ?_, fun i hi => ?_⟩
    · simp only [Vec.put, h1]
      by_cases hr : r + 1 = nv + s'.vEq
      · rw [if_pos hr, if_pos (by omega)]
      · rw [if_neg hr, if_neg (by omega), h2]
    · simp only [Vec.put]
      rw [if_neg (by omega), h3 i hi]
  have addF : ∀ (t t' : Vec α) (n : Nat) (v : α), (∀ r, t (base + r) = t' (r + 1)) → (∀ i < base, t i = T i) →
      (∀ r, (if n = 0 then t else Vec.add t (base + n - 1) v) (base + r) =
        (if n = 0 then t' else Vec.add t' n v) (r + 1)) ∧
      ∀ i < base, (if n = 0 then t else Vec.add t (base + n - 1) v) i = T i := by
    intro t t' n v ht ho
    by_cases hn : n = 0
    · simp only [hn, if_true]; exact ⟨ht, ho⟩
    · simp only [hn, if_false]
      refine ⟨fun r => ?_, fun i hi => ?_⟩
      · simp only [Vec.add, Vec.put]
        by_cases hr : r + 1 = n
        · rw [if_pos hr, if_pos (by omega)]
          subst hr
          rw [show base + (r + 1) - 1 = base + r by omega, ht]
        · rw [if_neg hr, if_neg (by omega), ht]
      · simp only [Vec.add, Vec.put]
        rw [if_neg (by omega), ho i hi]
  have same : Follows base T s s' := ⟨h1, h2, h3⟩
  cases e
  case V id a b src =>
    simp only [bfTtStep, ttStep]
    cases src.timeDep <;> cases hv : src.eval (some time)
    · exact ⟨by simp, fun q hq => ⟨_, rfl, by simp only [Bool.false_eq_true, if_false, Except.ok.injEq] at hq; subst hq; exact bump _ _ same _⟩⟩
    · exact ⟨by simp, fun q hq => ⟨_, rfl, by simp only [Bool.false_eq_true, if_false, Except.ok.injEq] at hq; subst hq; exact bump _ _ same _⟩⟩
    · simp
    · exact ⟨by simp, fun q hq => ⟨_, rfl, by
        simp only [if_true, Except.ok.injEq] at hq; subst hq; exact bump _ _ (putF _) _⟩⟩
  case I id a b src =>
    simp only [bfTtStep, ttStep]
    cases src.timeDep <;> cases hv : src.eval (some time)
    · exact ⟨by simp, fun q hq => ⟨_, rfl, by simp only [Bool.false_eq_true, if_false, Except.ok.injEq] at hq; subst hq; exact bump _ _ same _⟩⟩
    · exact ⟨by simp, fun q hq => ⟨_, rfl, by simp only [Bool.false_eq_true, if_false, Except.ok.injEq] at hq; subst hq; exact bump _ _ same _⟩⟩
    · simp
    · rename_i v
      refine ⟨by simp, fun q hq => ⟨_, rfl, ?_⟩⟩
      simp only [if_true, Except.ok.injEq] at hq
      subst hq
      obtain ⟨a1, a2⟩ := addF s.Tt s'.Tt a v h2 h3
      obtain ⟨b1, b2⟩ := addF _ _ b (-v) a1 a2
      have hq' : Follows base T
          { s with Tt := if b = 0 then (if a = 0 then s.Tt else Vec.add s.Tt (base + a - 1) v)
              else Vec.add (if a = 0 then s.Tt else Vec.add s.Tt (base + a - 1) v) (base + b - 1) (-v) }
          { s' with Tt := if b = 0 then (if a = 0 then s'.Tt else Vec.add s'.Tt a v)
              else Vec.add (if a = 0 then s'.Tt else Vec.add s'.Tt a v) b (-v) } := ⟨h1, b1, b2⟩
      exact bump _ _ hq' _
  all_goals
    simp only [bfTtStep, ttStep]
    exact ⟨by simp, fun q hq => ⟨_, rfl, by simp only [Except.ok.injEq] at hq; subst hq; exact bump _ _ same _⟩⟩

theorem bf_loop_follows {nv base : Nat} (hnv : 0 < nv) {T : Vec α} {time : α} (circ : List (Elem α)) {s s' : TtState α}
    (hf : Follows base T s s') :
    (∀ x, loop (bfTtStep nv base time) s circ = .error x ↔ loop (ttStep nv (some time)) s' circ = .error x) ∧
    ∀ q, loop (bfTtStep nv base time) s circ = .ok q →
      ∃ q', loop (ttStep nv (some time)) s' circ = .ok q' ∧ Follows base T q q' := by
  induction circ generalizing s s' with
  | nil =>
    refine ⟨by simp [loop], fun q hq => ⟨s', rfl, ?_⟩⟩
    simp only [loop, Except.ok.injEq] at hq
    subst hq
    exact hf
  | cons e r ih =>
    obtain ⟨a, b⟩ := bf_step_follows hnv (time := time) hf e
    simp only [loop]
    cases hs : bfTtStep nv base time s e with
    | error x =>
      rw [(a x).1 hs]
      simp
    | ok q =>
      obtain ⟨q', h1, h2⟩ := b q hs
      rw [h1]
      exact ih h2

theorem tass_is_bf (nv : Nat) (time : α) (s : TtState α) (e : Elem α) :
    tassStep nv time s e = bfTtStep nv 0 time s e := by
  cases e <;> simp only [tassStep, bfTtStep, Nat.zero_add]

/-- C172: the sources of point `index` of the shooting method are those that the transient uses at the time
`index * step`, without the row of ground. -/
theorem C172_sources (circ : List (Elem α)) {nv : Nat} (hnv : 0 < nv) (Tf : Vec α) (step : α) (index : Nat) :
    (∀ V, tassVector circ nv Tf step index = .ok V → ∃ Tt, genTt circ nv (some ((index : α) * step)) = .ok Tt ∧
      ∀ r, V r = Tf r + Tt (r + 1)) ∧
    ∀ x, tassVector circ nv Tf step index = .error x ↔ genTt circ nv (some ((index : α) * step)) = .error x := by
  have hf : Follows (α := α) 0 (fun _ => 0) ⟨fun _ => 0, 0⟩ ⟨fun _ => 0, 0⟩ := ⟨rfl, fun _ => rfl, fun _ h => by omega⟩
  obtain ⟨a, b⟩ := bf_loop_follows hnv (time := (index : α) * step) circ hf
  have he : loop (tassStep nv ((index : α) * step)) ⟨fun _ => 0, 0⟩ circ =
      loop (bfTtStep nv 0 ((index : α) * step)) ⟨fun _ => 0, 0⟩ circ := by
    congr 1
    funext s e
    exact tass_is_bf nv _ s e
  unfold tassVector genTt
  rw [he]
  cases hs : loop (bfTtStep nv 0 ((index : α) * step)) ⟨fun _ => 0, 0⟩ circ with
  | error x =>
    rw [(a x).1 hs]
    simp
  | ok q =>
    obtain ⟨q', h1, h2⟩ := b q hs
    rw [h1]
    refine ⟨fun V hV => ⟨_, rfl, fun r => ?_⟩, by simp⟩
    simp only [Except.ok.injEq] at hV
    subst hV
    have := h2.val r
    rw [Nat.zero_add] at this
    simp [this]

/-- the vector of the sources has no entries outside the unknowns -/
theorem genTt_support {circ : List (Elem α)} {nv : Nat} (he : ∀ e ∈ circ, NodesLt nv e) {time : Option α} {Tt : Vec α}
    (h : genTt circ nv time = .ok Tt) (j : Nat) (hj : nv + (vdes circ).length ≤ j) : Tt j = 0 := by
  have key : ∀ (l : List (Elem α)) (s q : TtState α), (∀ e ∈ l, NodesLt nv e) → loop (ttStep nv time) s l = .ok q →
      ∀ j, nv + s.vEq + (vdes l).length ≤ j → s.Tt j = 0 → q.Tt j = 0 := by
    intro l
    induction l with
    | nil =>
      intro s q _ hq j _ h0
      simp only [loop, Except.ok.injEq] at hq
      subst hq
      exact h0
    | cons e r ih =>
      intro s q hn hq j hj h0
      simp only [loop] at hq
      cases hs : ttStep nv time s e with
      | error x => simp [hs] at hq
      | ok s' =>
        simp only [hs] at hq
        have hn0 := hn e (by simp)
        have hvd : (vdes (e :: r)).length = (if e.vde then 1 else 0) + (vdes r).length := by
          unfold vdes
          cases hv : e.vde <;> simp [hv]
          omega
        have hs' : s'.vEq = s.vEq + (if e.vde then 1 else 0) ∧ s'.Tt j = 0 := by
          have hput : ∀ v, e.vde = true → Vec.put s.Tt (nv + s.vEq) v j = 0 := by
            intro v hv
            simp only [Vec.put]
            rw [if_neg (by rw [hvd, hv] at hj; simp at hj; omega), h0]
          cases e
          case V id a b src =>
            simp only [ttStep] at hs
            cases htd : src.timeDep <;> cases hv : src.eval time <;> simp [htd, hv, Elem.vde] at hs
            · subst hs; simp [Elem.vde, h0]
            · subst hs; simp [Elem.vde, h0]
            · subst hs; exact ⟨by simp [Elem.vde], hput _ rfl⟩
          case I id a b src =>
            simp only [NodesLt] at hn0
            simp only [ttStep] at hs
            cases htd : src.timeDep <;> cases hv : src.eval time <;> simp [htd, hv, Elem.vde] at hs
            · subst hs; simp [Elem.vde, h0]
            · subst hs; simp [Elem.vde, h0]
            · subst hs
              refine ⟨by simp [Elem.vde], ?_⟩
              have hadd : ∀ (t : Vec α) (n : Nat) (v : α), n < nv → t j = 0 → (if n = 0 then t else Vec.add t n v) j = 0 := by
                intro t n v hn ht
                split_ifs
                · exact ht
                · simp only [Vec.add, Vec.put]
                  rw [if_neg (by omega), ht]
              exact hadd _ _ _ hn0.2 (hadd _ _ _ hn0.1 h0)
          all_goals
            simp only [ttStep, Elem.vde] at hs
            simp only [Except.ok.injEq] at hs
            subst hs
            simp [Elem.vde, h0]
        refine ih s' q (fun e' he' => hn e' (by simp [he'])) hq j ?_ hs'.2
        rw [hs'.1]
        rw [hvd] at hj
        omega
  unfold genTt at h
  cases hs : loop (ttStep nv time) ⟨fun _ => 0, 0⟩ circ with
  | error x => simp [hs] at h
  | ok q =>
    simp only [hs, Except.ok.injEq] at h
    subst h
    exact key circ _ q he hs j (by simpa using hj) rfl

/-- C173: the brute-force method uses the same sources at the same times, and none at the first point. -/
theorem C173_sources {circ : List (Elem α)} {nv n points : Nat} (hnv : 0 < nv) (he : ∀ e ∈ circ, NodesLt nv e)
    (hn : n + 1 = nv + (vdes circ).length) {step : α} {T : Vec α} (h : buildTt circ nv n points step = .ok T) :
    (∀ r < n, T r = 0) ∧
    ∀ k, 1 ≤ k → k < points → ∃ Tt, genTt circ nv (some ((k : α) * step)) = .ok Tt ∧ ∀ r < n, T (k * n + r) = Tt (r + 1) := by
  have key : ∀ (d lo : Nat) (T0 T : Vec α), (∀ i, lo * n ≤ i → T0 i = 0) →
      loop (fun (T : Vec α) (index : Nat) =>
        match loop (bfTtStep nv (index * n) ((index : α) * step)) ⟨T, 0⟩ circ with
        | .ok s => Except.ok (ε := Err) s.Tt
        | .error x => .error x) T0 (List.range' lo d) = .ok T →
      (∀ i < lo * n, T i = T0 i) ∧
      ∀ k, lo ≤ k → k < lo + d → ∃ Tt, genTt circ nv (some ((k : α) * step)) = .ok Tt ∧ ∀ r < n, T (k * n + r) = Tt (r + 1) := by
    intro d
    induction d with
    | zero =>
      intro lo T0 T _ hT
      simp only [List.range'_zero, loop, Except.ok.injEq] at hT
      subst hT
      exact ⟨fun _ _ => rfl, fun k h1 h2 => by omega⟩
    | succ d ih =>
      intro lo T0 T h0 hT
      rw [List.range'_succ] at hT
      simp only [loop] at hT
      have hf : Follows (lo * n) T0 ⟨T0, 0⟩ ⟨fun _ => 0, 0⟩ := ⟨rfl, fun r => h0 _ (by omega), fun _ _ => rfl⟩
      obtain ⟨-, b⟩ := bf_loop_follows hnv (time := (lo : α) * step) circ hf
      cases hs : loop (bfTtStep nv (lo * n) ((lo : α) * step)) ⟨T0, 0⟩ circ with
      | error x => simp [hs] at hT
      | ok q =>
        obtain ⟨q', h1, h2⟩ := b q hs
        simp only [hs] at hT
        have hg : genTt circ nv (some ((lo : α) * step)) = .ok q'.Tt := by
          unfold genTt
          rw [h1]
        have hz : ∀ i, (lo + 1) * n ≤ i → q.Tt i = 0 := by
          intro i hi
          have e1 : i = lo * n + (i - lo * n) := by rw [Nat.add_mul] at hi; omega
          rw [e1, h2.val]
          exact genTt_support he hg _ (by rw [Nat.add_mul] at hi; omega)
        obtain ⟨c1, c2⟩ := ih (lo + 1) q.Tt T hz hT
        refine ⟨fun i hi => ?_, fun k hk1 hk2 => ?_⟩
        · rw [c1 i (by rw [Nat.add_mul]; omega), h2.old i hi]
        · rcases Nat.eq_or_lt_of_le hk1 with rfl | hlt
          · refine ⟨q'.Tt, hg, fun r hr => ?_⟩
            rw [c1 _ (by rw [Nat.add_mul]; omega), h2.val]
          · exact c2 k hlt (by omega)
  have hr : (List.range points).drop 1 = List.range' 1 (points - 1) := by
    rw [List.range_eq_range', List.drop_range']
  unfold buildTt at h
  rw [hr] at h
  obtain ⟨a, b⟩ := key (points - 1) 1 (fun _ => 0) T (fun _ _ => rfl) h
  refine ⟨fun r hr => a r (by omega), fun k h1 h2 => b k h1 (by omega)⟩

end

/-- a sine-like source `t ↦ 2 t` at a node with a resistor, and a time dependent current -/
def drivenCirc : List (Elem ℚ) :=
  [.V "V1" 1 0 { dc := some 1, ac := none, timeDep := true, fn := some fun t => 2 * t.getD 0 }, .R "R1" 1 2 3,
   .I "I1" 2 0 { dc := none, ac := none, timeDep := true, fn := some fun t => t.getD 0 + 5 }]

/-- two nodes and the current of the voltage source: at the times 1/2 and 1 -/
example : (∀ e ∈ drivenCirc, Mna.NodesLt 3 e) ∧ 3 + 1 = 3 + (vdes drivenCirc).length ∧
    (buildTt drivenCirc 3 3 3 (1 / 2)).toOption.map (fun T => (List.range 9).map T) =
      some [0, 0, 0, 0, 11 / 2, -1, 0, 6, -2] ∧
    (tassVector drivenCirc 3 (fun r => r) (1 / 2) 2).toOption.map (fun T => (List.range 3).map T) = some [0, 1 + 6, 2 - 2] := by
  refine ⟨by simp [drivenCirc, Mna.NodesLt], rfl, by decide +kernel, by decide +kernel⟩

end Verif.PssRun
