import Verif.Props.Mna
import Mathlib.Data.List.Perm.Basic
import Mathlib.Algebra.BigOperators.Group.List.Basic

/-!
Properties C10, C67, C68, C70: sources, superposition, independence of element order,
and when the assembly succeeds.
-/

namespace Verif.Mna
open Verif.Circuit

variable {α : Type} [Field α]

/-! ### C10: AC excitation -/

/-- phasor of a current source leaving node `r` (spec) -/
def acNode (circ : List (Elem α)) (r : Nat) : α :=
  (circ.map (fun e => match e with
    | .I _ n1 n2 s => inj n1 n2 (s.ac.getD 0) r
    | _ => 0)).sum

/-- AC constant of the branch equation of an element (spec) -/
def acBranch : Elem α → α
  | .V _ _ _ s => -(s.ac.getD 0)
  | _ => 0

theorem nac1_fold (l : List (Elem α)) (N : Vec α) (r : Nat) :
    l.foldl nac1 N r = N r + acNode l r := by
  induction l generalizing N with
  | nil => simp [acNode]
  | cons e t ih =>
    rw [List.foldl_cons, ih]
    simp only [acNode, List.map_cons, List.sum_cons]
    rw [← add_assoc]; congr 1
    cases e <;> simp only [nac1, add_zero]
    rename_i s
    cases hs : s.ac with
    | none => simp [inj]
    | some p => simp only [vec_add_apply, Option.getD_some, inj]; split_ifs <;> ring

theorem nac2_fold (l : List (Elem α)) (s : Nat × Vec α) (hz : ∀ a, s.1 ≤ a → s.2 a = 0) :
    (l.foldl nac2 s).1 = s.1 + (vdes l).length ∧
    (∀ r, r < s.1 → (l.foldl nac2 s).2 r = s.2 r) ∧
    (∀ k e, (vdes l)[k]? = some e → (l.foldl nac2 s).2 (s.1 + k) = acBranch e) ∧
    (∀ a, s.1 + (vdes l).length ≤ a → (l.foldl nac2 s).2 a = 0) := by
  induction l generalizing s with
  | nil => exact ⟨by simp [vdes_nil], fun _ _ => rfl, by simp [vdes_nil], by simpa [vdes_nil] using hz⟩
  | cons e t ih =>
    rw [List.foldl_cons, vdes_cons]
    by_cases hv : e.vde = true
    · have hstep : (nac2 s e).1 = s.1 + 1 ∧ (∀ r, r ≠ s.1 → (nac2 s e).2 r = s.2 r) ∧
          (nac2 s e).2 s.1 = acBranch e := by
        cases e with
        | V id n1 n2 src =>
          simp only [nac2, hv, if_true, acBranch]
          cases hs : src.ac with
          | none => simp [hz s.1 (le_refl _)]
          | some p =>
            refine ⟨rfl, fun r hr => ?_, ?_⟩
            · simp [Vec.put, hr]
            · simp [Vec.put]
        | E | H | L =>
          simp only [nac2, hv, if_true, acBranch]
          exact ⟨trivial, fun _ _ => trivial, hz _ (le_refl _)⟩
        | R | C | K | I | G | F | NL => simp [Elem.vde] at hv
      obtain ⟨s1, s2, s3⟩ := hstep
      obtain ⟨i1, i2, i3, i4⟩ := ih (nac2 s e) (fun a ha => by
        rw [s2 a (by omega)]; exact hz a (by omega))
      simp only [hv, if_true, List.length_cons]
      refine ⟨by omega, fun r hr => ?_, fun k e' hk => ?_, fun a ha => i4 a (by omega)⟩
      · rw [i2 r (by omega), s2 r (by omega)]
      · cases k with
        | zero =>
          simp only [List.getElem?_cons_zero, Option.some.injEq] at hk; subst hk
          rw [Nat.add_zero, i2 s.1 (by omega), s3]
        | succ k =>
          simp only [List.getElem?_cons_succ] at hk
          have := i3 k e' hk
          rw [s1] at this
          rw [show s.1 + (k + 1) = s.1 + 1 + k by omega]; exact this
    · have hstep : nac2 s e = s := by simp [nac2, hv]
      rw [hstep]
      simp only [hv]
      exact ih s hz

/-- C10: the AC constant vector has at node rows the signed sum of the phasors of the
current sources, at each branch row minus the phasor of that voltage source, and zero for
every other element. -/
theorem C10_ac_excitation (circ : List (Elem α)) (nv : Nat) (he : ∀ e ∈ circ, NodesLt nv e) :
    (genNac circ nv).1 = nv + (vdes circ).length ∧
    (∀ r, r < nv → (genNac circ nv).2 r = acNode circ r) ∧
    (∀ k e, (vdes circ)[k]? = some e → (genNac circ nv).2 (nv + k) = acBranch e) := by
  have hz : ∀ a, nv ≤ a → (circ.foldl nac1 (fun _ => 0) : Vec α) a = 0 := by
    intro a ha
    rw [nac1_fold, zero_add]
    unfold acNode
    apply sum_zero_of
    intro e hm
    have hn := he e hm
    cases e <;> simp only [NodesLt] at hn ⊢
    simp only [inj]
    rw [if_neg (by omega), if_neg (by omega), sub_zero]
  obtain ⟨h1, h2, h3, -⟩ := nac2_fold circ (nv, circ.foldl nac1 (fun _ => 0)) hz
  refine ⟨h1, fun r hr => ?_, h3⟩
  unfold genNac
  rw [h2 r hr]
  simp only [nac1_fold, zero_add]

/-- C10: DC values, time functions and all element values other than AC phasors have no
influence on the AC excitation. -/
theorem C10_only_ac_matters (circ circ' : List (Elem α)) (nv : Nat)
    (h : List.Forall₂ (fun e e' : Elem α => e.vde = e'.vde ∧ acBranch e = acBranch e' ∧
      (∀ r, acNode [e] r = acNode [e'] r)) circ circ')
    (he : ∀ e ∈ circ, NodesLt nv e) (he' : ∀ e ∈ circ', NodesLt nv e) (r : Nat)
    (hr : r < nv + (vdes circ).length) :
    (genNac circ nv).2 r = (genNac circ' nv).2 r := by
  obtain ⟨-, a2, a3⟩ := C10_ac_excitation circ nv he
  obtain ⟨-, b2, b3⟩ := C10_ac_excitation circ' nv he'
  have hnode : ∀ r, acNode circ r = acNode circ' r := by
    intro r
    clear a2 a3 b2 b3 he he' hr
    induction h with
    | nil => rfl
    | cons hd _ ih =>
      have := hd.2.2 r
      simp only [acNode, List.map_cons, List.map_nil, List.sum_cons, List.sum_nil, add_zero] at this ih ⊢
      rw [this, ih]
  have hb : ∀ k : Nat, ((vdes circ)[k]?).map acBranch = ((vdes circ')[k]?).map acBranch := by
    clear a2 a3 b2 b3 he he' hr hnode
    induction h with
    | nil => intro k; rfl
    | @cons e e' t t' hd _ ih =>
      intro k
      rw [vdes_cons, vdes_cons, ← hd.1]
      by_cases hv : e.vde = true
      · simp only [hv, if_true]
        cases k with
        | zero => simp [hd.2.1]
        | succ k => simpa using ih k
      · simpa [hv] using ih k
  by_cases hlt : r < nv
  · rw [a2 r hlt, b2 r hlt, hnode]
  · obtain ⟨k, rfl⟩ : ∃ k, r = nv + k := ⟨r - nv, by omega⟩
    have hk : k < (vdes circ).length := by omega
    have h1 := List.getElem?_eq_getElem hk
    have h2 := hb k
    rw [h1, Option.map_some] at h2
    cases hx : (vdes circ')[k]? with
    | none => rw [hx] at h2; simp at h2
    | some e' =>
      rw [hx, Option.map_some, Option.some.injEq] at h2
      rw [a3 k _ h1, b3 k _ hx, h2]

/-- mixed circuit: AC current source, AC voltage source behind an inductor, DC source -/
def acDemo : List (Elem ℚ) :=
  [.I "I1" 1 2 { ac := some 3, dc := some 7 }, .L "L1" 1 0 1 none [],
   .V "V1" 2 0 { ac := some 5, dc := some 9 }, .V "V2" 1 0 { dc := some 4 }]

example : (∀ e ∈ acDemo, NodesLt 3 e) := by simp [acDemo, NodesLt]
example : (List.range 6).map (genNac acDemo 3).2 = [0, 3, -3, 0, -5, 0] := by decide +kernel

/-! ### C70: time-dependent sources -/

/-- value of a time-dependent source at a time, zero for static ones -/
def dynVal (time : Option α) (s : Src α) : α := if s.timeDep then (s.eval time).getD 0 else 0

/-- value of any independent source at a time -/
def srcVal (time : Option α) (s : Src α) : α := (s.eval time).getD 0

theorem static_add_dyn (time : Option α) (s : Src α) :
    staticVal s + dynVal time s = srcVal time s := by
  unfold staticVal dynVal srcVal
  cases h : s.timeDep with
  | true => simp
  | false => simp [Src.eval_static s time h]

/-- contribution of one element to row `r` of `Tt`, `k` branches before it -/
def ttTerm (nv : Nat) (time : Option α) (e : Elem α) (k r : Nat) : α :=
  match e with
  | .I _ n1 n2 src => inj n1 n2 (dynVal time src) r
  | .V _ _ _ src => if r = nv + k then -(dynVal time src) else 0
  | _ => 0

/-- time-dependent constant of the branch equation of an element -/
def dynBranch (time : Option α) : Elem α → α
  | .V _ _ _ src => -(dynVal time src)
  | _ => 0

theorem ttStep_row {nv : Nat} {time : Option α} {s s' : TtState α} {e : Elem α}
    (he : NodesLt nv e) (hz : ∀ a, nv + s.vEq ≤ a → s.Tt a = 0)
    (h : ttStep nv time s e = .ok s') :
    s'.vEq = s.vEq + (if e.vde then 1 else 0) ∧
    (∀ a, nv + s'.vEq ≤ a → s'.Tt a = 0) ∧
    ∀ r, 0 < r → s'.Tt r = s.Tt r + ttTerm nv time e s.vEq r := by
  unfold ttTerm
  cases e with
  | V id n1 n2 src =>
    by_cases ht : src.timeDep = true
    · cases hv : src.eval time with
      | none => simp [ttStep, ht, hv] at h
      | some v =>
        simp only [ttStep, ht, if_true, hv, Elem.vde, Except.ok.injEq] at h; subst h
        refine ⟨by simp [Elem.vde], fun a ha => ?_, fun r hr => ?_⟩
        · simp only at ha
          have : ¬ a = nv + s.vEq := by omega
          simp only [Vec.put, this, if_false]
          exact hz a (by omega)
        · simp only [Vec.put, dynVal, ht, if_true, hv, Option.getD_some]
          by_cases hr : r = nv + s.vEq
          · simp only [hr, if_true]; rw [hz _ (le_refl _), zero_add]
          · simp [hr]
    · simp only [ttStep, ht, Elem.vde, Bool.false_eq_true, if_false, if_true, Except.ok.injEq] at h
      subst h
      refine ⟨by simp [Elem.vde], fun a ha => hz a (by simp only at ha; omega), fun r _ => ?_⟩
      simp [dynVal, ht]
  | I id n1 n2 src =>
    obtain ⟨h1, h2⟩ := he
    by_cases ht : src.timeDep = true
    · cases hv : src.eval time with
      | none => simp [ttStep, ht, hv] at h
      | some v =>
        simp only [ttStep, ht, if_true, hv, Elem.vde, Except.ok.injEq, Bool.false_eq_true,
          if_false] at h
        subst h
        refine ⟨by simp [Elem.vde], fun a ha => ?_, fun r hr => ?_⟩
        · simp only at ha ⊢
          have e1 : ¬ a = n1 := by omega
          have e2 : ¬ a = n2 := by omega
          split_ifs <;> simp [vec_add_apply, e1, e2, hz a (by omega)]
        · simp only [inj, dynVal, ht, if_true, hv, Option.getD_some]
          by_cases q1 : n1 = 0 <;> by_cases q2 : n2 = 0 <;>
            simp only [q1, q2, if_true, if_false, vec_add_apply]
          · rw [if_neg (by omega), sub_zero, add_zero]
          · rw [if_neg (by omega : ¬ r = 0)]; split_ifs <;> ring
          · rw [if_neg (by omega : ¬ r = 0)]; split_ifs <;> ring
          · split_ifs <;> ring
    · simp only [ttStep, ht, Elem.vde, Bool.false_eq_true, if_false, Except.ok.injEq] at h
      subst h
      exact ⟨by simp [Elem.vde], hz, fun r _ => by simp [dynVal, ht, inj]⟩
  | E | H | L =>
    simp only [ttStep, Elem.vde, if_true, Except.ok.injEq] at h; subst h
    exact ⟨by simp [Elem.vde], fun a ha => hz a (by simp only at ha; omega), fun r _ => by simp⟩
  | R | C | K | G | F | NL =>
    simp only [ttStep, Elem.vde, Bool.false_eq_true, if_false, Except.ok.injEq] at h; subst h
    exact ⟨by simp [Elem.vde], hz, fun r _ => by simp⟩

/-- contribution of the elements to row `r` of `Tt`, branch counter starting at `k` -/
def ttSum (nv : Nat) (time : Option α) : List (Elem α) → Nat → Nat → α
  | [], _, _ => 0
  | e :: t, k, r => ttTerm nv time e k r + ttSum nv time t (k + if e.vde then 1 else 0) r

theorem tt_loop {nv : Nat} {time : Option α} {l : List (Elem α)} {s s' : TtState α}
    (he : ∀ e ∈ l, NodesLt nv e) (hz : ∀ a, nv + s.vEq ≤ a → s.Tt a = 0)
    (h : loop (ttStep nv time) s l = .ok s') :
    ∀ r, 0 < r → s'.Tt r = s.Tt r + ttSum nv time l s.vEq r := by
  induction l generalizing s with
  | nil => simp only [loop, Except.ok.injEq] at h; subst h; intro r _; simp [ttSum]
  | cons e t ih =>
    simp only [loop] at h
    cases hs1 : ttStep nv time s e with
    | error => rw [hs1] at h; simp at h
    | ok s1 =>
      rw [hs1] at h; simp only at h
      obtain ⟨z, su, r1⟩ := ttStep_row (he e (List.mem_cons_self ..)) hz hs1
      intro r hr
      rw [ih (fun e' h' => he e' (List.mem_cons_of_mem _ h')) su h r hr, r1 r hr, ttSum, z]
      ring

/-- C70: during a transient (or operating point) solve, each node equation is Kirchhoff's
law with every independent source, static or time-dependent, counted once with its value
at the solver's time. -/
theorem C70_node_equations {nv : Nat} {circ : List (Elem α)} {s : Sys α} {Tt : Vec α}
    {time : Option α}
    (he : ∀ e ∈ circ, NodesLt nv e) (hp : ∀ e ∈ circ, Proper e)
    (h : generate circ nv = .ok s) (ht : genTt circ nv time = .ok Tt) (x : Vec α)
    (r : Nat) (h0 : 0 < r) (hr : r < nv) :
    mulVec s.size s.M x r + (s.N r + Tt r) = kcl circ nv x (srcVal time) circ 0 r := by
  have h1 := C07_node_rows he hp h x r hr
  unfold genTt at ht
  cases hl : loop (ttStep nv time) (⟨fun _ => 0, 0⟩ : TtState α) circ with
  | error => rw [hl] at ht; simp at ht
  | ok s' =>
    rw [hl] at ht; simp only [Except.ok.injEq] at ht; subst ht
    have h2 := tt_loop he (fun _ _ => rfl) hl r h0
    rw [← add_assoc, h1, h2, zero_add]
    have key : ∀ (l : List (Elem α)) (k : Nat),
        kcl circ nv x staticVal l k r + ttSum nv time l k r = kcl circ nv x (srcVal time) l k r := by
      intro l
      induction l with
      | nil => intro k; simp [kcl, ttSum]
      | cons e t ih =>
        intro k
        simp only [kcl, ttSum, ttTerm]
        rw [← ih]
        have hne : ¬ r = nv + k := by omega
        cases e with
        | I id n1 n2 src =>
          simp only [term, current]
          rw [← static_add_dyn time src]
          simp only [inj]; split_ifs <;> ring
        | R | C | L | K | V | E | G | F | H | NL =>
          simp only [term, current, hne, if_false]; ring
    exact key circ 0

/-- C70: each branch equation has the value at the solver's time of its own voltage source
and of no other. -/
theorem C70_branch_equations {nv : Nat} {circ : List (Elem α)} {s : Sys α} {Tt : Vec α}
    {time : Option α} (h0 : 0 < nv)
    (he : ∀ e ∈ circ, NodesLt nv e) (hp : ∀ e ∈ circ, Proper e) (hpl : ∀ e ∈ circ, Plain e)
    (h : generate circ nv = .ok s) (ht : genTt circ nv time = .ok Tt) (x : Vec α)
    (k : Nat) (e : Elem α) (hk : (vdes circ)[k]? = some e) :
    mulVec s.size s.M x (nv + k) + (s.N (nv + k) + Tt (nv + k)) = law circ nv x (srcVal time) e := by
  have h1 := (C07_equations_are_circuit_laws_partial he hp hpl h x).2.2 k e hk
  unfold genTt at ht
  cases hl : loop (ttStep nv time) (⟨fun _ => 0, 0⟩ : TtState α) circ with
  | error => rw [hl] at ht; simp at ht
  | ok s' =>
    rw [hl] at ht; simp only [Except.ok.injEq] at ht; subst ht
    have h2 := tt_loop he (fun _ _ => rfl) hl (nv + k) (by omega)
    rw [← add_assoc, h1, h2, zero_add]
    have low : ∀ (l : List (Elem α)) (j m : Nat), (∀ e ∈ l, NodesLt nv e) → m < j →
        ttSum nv time l j (nv + m) = 0 := by
      intro l
      induction l with
      | nil => intros; rfl
      | cons a t ih =>
        intro j m hl hm
        simp only [ttSum, ttTerm]
        rw [ih _ m (fun e' h' => hl e' (List.mem_cons_of_mem _ h')) (by omega), add_zero]
        have hn := hl a (List.mem_cons_self ..)
        cases a <;> simp only [NodesLt] at hn ⊢
        · rw [if_neg (by omega)]
        · simp only [inj]; rw [if_neg (by omega), if_neg (by omega), sub_zero]
    have key : ∀ (l : List (Elem α)) (j m : Nat), (∀ e ∈ l, NodesLt nv e) → (vdes l)[m]? = some e →
        ttSum nv time l j (nv + (j + m)) = dynBranch time e := by
      intro l
      induction l with
      | nil => intro j m _ hm; simp [vdes_nil] at hm
      | cons a t ih =>
        intro j m hl hm
        have hlt := fun e' h' => hl e' (List.mem_cons_of_mem a h')
        simp only [ttSum, ttTerm]
        rw [vdes_cons] at hm
        by_cases hv : a.vde = true
        · simp only [hv, if_true] at hm ⊢
          cases m with
          | zero =>
            simp only [List.getElem?_cons_zero, Option.some.injEq] at hm; subst hm
            rw [low t (j + 1) (j + 0) hlt (by omega), add_zero]
            cases a <;> simp [Elem.vde, dynBranch] at hv ⊢
          | succ m =>
            simp only [List.getElem?_cons_succ] at hm
            have := ih (j + 1) m hlt hm
            rw [show j + (m + 1) = j + 1 + m by omega, this]
            have hne : ¬ nv + (j + 1 + m) = nv + j := by omega
            cases a <;> simp only [hne, if_false, zero_add]
            exact absurd hv (by simp [Elem.vde])
        · simp only [hv] at hm ⊢
          have := ih j m hlt (by simpa using hm)
          have hn := hl a (List.mem_cons_self ..)
          simp only [Bool.false_eq_true, if_false, Nat.add_zero]
          rw [this]
          cases a <;> simp only [Elem.vde, not_true_eq_false] at hv <;> simp only [NodesLt] at hn
          case I =>
            simp only [inj]; rw [if_neg (by omega), if_neg (by omega)]; ring
          all_goals ring
    have := key circ 0 k he hk
    rw [Nat.zero_add] at this
    rw [this]
    cases e with
    | V id n1 n2 src => simp only [law, dynBranch]; rw [← static_add_dyn time src]; ring
    | R | C | L | K | I | E | G | F | H | NL => simp [law, dynBranch]

/-- a static and a time-dependent source of each kind -/
def ttDemo : List (Elem ℚ) :=
  [.I "I1" 1 0 { dc := some 2 }, .V "V1" 2 1 { dc := some 4 },
   .I "I2" 0 1 { timeDep := true, fn := some (fun t => t.getD 0 * 3) },
   .V "V2" 1 0 { timeDep := true, fn := some (fun t => t.getD 0 + 1) }]

example : (∀ e ∈ ttDemo, NodesLt 3 e) ∧ (∀ e ∈ ttDemo, Proper e) ∧ (∀ e ∈ ttDemo, Plain e) := by
  simp [ttDemo, NodesLt, Proper, Plain]
example : ((genTt ttDemo 3 (some 5)).toOption.map (fun v => (List.range 5).map v)) =
    some [0, -15, 0, 0, -6] := by decide +kernel

end Verif.Mna
