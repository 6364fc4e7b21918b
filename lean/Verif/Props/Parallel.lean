import Verif.Model.Dyn
import Verif.Proof.Symbolic
import Verif.Model.Results
import Mathlib.Tactic.FieldSimp
import Mathlib.Tactic.Ring

/-!
# C216: elements in parallel and elements turned round

All that the analyses know about a circuit without non-linear devices: the matrix and the constant vector of `generate_mna_and_N`, the
time-dependent sources, the AC sources, the matrices of the dynamic elements, and the names of the variables.
-/

namespace Verif.Parallel
open Verif.Circuit Verif.Mna Verif.Dyn
open Verif.Symbolic (δ)

variable {α : Type} [Field α]

/-- the same equations, sources and variables, or the same errors -/
structure Same (c c' : List (Elem α)) : Prop where
  mna : ∀ nv, generate c nv = generate c' nv
  sources : ∀ nv time, genTt c nv time = genTt c' nv time
  ac : ∀ nv, genNac c nv = genNac c' nv
  dyn : ∀ nv S cmin, generateD c nv S cmin = generateD c' nv S cmin
  dynAC : ∀ nv S cmin, generateAC c nv S cmin = generateAC c' nv S cmin
  vars : ∀ nodes, Results.baseVars nodes c = Results.baseVars nodes c'

/-- the elements `A` do what the elements `B` do, wherever they are -/
structure Swap (A B : List (Elem α)) : Prop where
  plainA : ∀ e ∈ A, e.vde = false
  plainB : ∀ e ∈ B, e.vde = false
  s1 : ∀ s, loop stamp1 s A = loop stamp1 s B
  s3 : ∀ circ nv s, loop (stamp3 circ nv) s A = loop (stamp3 circ nv) s B
  tt : ∀ nv time s, loop (ttStep nv time) s A = loop (ttStep nv time) s B
  nac : ∀ N, A.foldl nac1 N = B.foldl nac1 N
  d : ∀ circ nv s, loop (dStep circ nv) s A = loop (dStep circ nv) s B
  dac : ∀ circ nv s, loop (acStep circ nv) s A = loop (acStep circ nv) s B

theorem loop_append {σ ε ι : Type} (f : σ → ι → Except ε σ) (X Y : List ι) : ∀ s, loop f s (X ++ Y) =
    match loop f s X with
    | .ok s' => loop f s' Y
    | .error x => .error x := by
  induction X with
  | nil => intro s; rfl
  | cons e r ih =>
    intro s
    rw [List.cons_append, loop, loop]
    cases f s e with
    | ok s' => exact ih s'
    | error x => rfl

theorem loop_swap {σ ε ι : Type} (f : σ → ι → Except ε σ) (X Y A B : List ι) (h : ∀ s, loop f s A = loop f s B) (s : σ) :
    loop f s (X ++ (A ++ Y)) = loop f s (X ++ (B ++ Y)) := by
  rw [loop_append, loop_append]
  cases loop f s X with
  | error x => rfl
  | ok s' => simp only [loop_append, h]

theorem aux_filter (key : List Char) : ∀ (l : List (Elem α)) (k : Nat), findVdeIndexAux key l k = findVdeIndexAux key (l.filter Elem.vde) k
  | [], _ => rfl
  | e :: r, k => by
    cases h : e.vde
    · rw [List.filter_cons_of_neg (by simp [h]), findVdeIndexAux, h, if_neg (by simp)]
      exact aux_filter key r k
    · rw [List.filter_cons_of_pos h, findVdeIndexAux, findVdeIndexAux, h]
      simp only [if_true, aux_filter key r (k + 1)]

theorem vdes_swap {A B : List (Elem α)} (hA : ∀ e ∈ A, e.vde = false) (hB : ∀ e ∈ B, e.vde = false) (X Y : List (Elem α)) :
    (X ++ (A ++ Y)).filter Elem.vde = (X ++ (B ++ Y)).filter Elem.vde := by
  have h : ∀ l : List (Elem α), (∀ e ∈ l, e.vde = false) → l.filter Elem.vde = [] := fun l hl =>
    List.filter_eq_nil_iff.2 fun e he => by simp [hl e he]
  simp only [List.filter_append, h A hA, h B hB]

theorem stamp2_plain (circ : List (Elem α)) (nv : Nat) (l : List (Elem α)) (hl : ∀ e ∈ l, e.vde = false) (s : Sys α) :
    loop (stamp2 circ nv) s l = .ok s := by
  induction l with
  | nil => rfl
  | cons e r ih =>
    have he := hl e (by simp)
    have : stamp2 circ nv s e = .ok s := by
      cases e <;> first | rfl | simp [Elem.vde] at he
    rw [loop, this]
    exact ih fun e he => hl e (by simp [he])

theorem nac2_plain (l : List (Elem α)) (hl : ∀ e ∈ l, e.vde = false) (s : Nat × Vec α) : l.foldl nac2 s = s := by
  induction l with
  | nil => rfl
  | cons e r ih =>
    have : nac2 s e = s := by
      unfold nac2
      rw [if_neg (by simp [hl e (by simp)])]
    rw [List.foldl_cons, this]
    exact ih fun e he => hl e (by simp [he])

theorem swap_same (X Y : List (Elem α)) {A B : List (Elem α)} (h : Swap A B) : Same (X ++ (A ++ Y)) (X ++ (B ++ Y)) := by
  have hv := vdes_swap h.plainA h.plainB X Y
  have hi : findVdeIndex (X ++ (A ++ Y)) = findVdeIndex (X ++ (B ++ Y)) := by
    funext p
    rw [findVdeIndex, findVdeIndex, aux_filter, hv, ← aux_filter]
  have h2 : stamp2 (X ++ (A ++ Y)) = stamp2 (X ++ (B ++ Y)) := by
    funext nv s e
    cases e <;> simp only [stamp2, hi]
  have h3 : stamp3 (X ++ (A ++ Y)) = stamp3 (X ++ (B ++ Y)) := by
    funext nv s e
    cases e <;> simp only [stamp3, hi]
  have h4 : dStep (X ++ (A ++ Y)) = dStep (X ++ (B ++ Y)) := by
    have : ∀ nv row id, couplings (X ++ (A ++ Y)) nv row id = couplings (X ++ (B ++ Y)) nv row id := by
      intro nv row id
      funext D cd
      simp only [couplings, hi]
    funext nv s e
    cases e <;> simp only [dStep, this]
  have h5 : acStep (X ++ (A ++ Y)) = acStep (X ++ (B ++ Y)) := by
    have : ∀ nv row id, couplingsAC (X ++ (A ++ Y)) nv row id = couplingsAC (X ++ (B ++ Y)) nv row id := by
      intro nv row id
      funext D cd
      simp only [couplingsAC, hi]
    funext nv s e
    cases e <;> simp only [acStep, this]
  refine ⟨fun nv => ?_, fun nv time => ?_, fun nv => ?_, fun nv S cmin => ?_, fun nv S cmin => ?_, fun nodes => ?_⟩
  · rw [generate, generate, loop_swap _ X Y A B h.s1]
    cases loop stamp1 ⟨nv, fun _ _ => 0, fun _ => 0⟩ (X ++ (B ++ Y)) with
    | error x => rfl
    | ok s1 =>
      simp only
      rw [h2, h3, loop_swap (stamp2 (X ++ (B ++ Y)) nv) X Y A B
        (fun s => by rw [stamp2_plain _ _ A h.plainA, stamp2_plain _ _ B h.plainB])]
      cases loop (stamp2 (X ++ (B ++ Y)) nv) s1 (X ++ (B ++ Y)) with
      | error x => rfl
      | ok s2 => exact loop_swap _ X Y A B (h.s3 _ nv) s2
  · rw [genTt, genTt, loop_swap _ X Y A B (h.tt nv time)]
  · simp only [genNac, List.foldl_append, h.nac, nac2_plain A h.plainA, nac2_plain B h.plainB]
  · rw [generateD, generateD, h4, loop_swap _ X Y A B (h.d _ nv)]
  · rw [generateAC, generateAC, h5, loop_swap _ X Y A B (h.dac _ nv)]
  · rw [Results.baseVars, Results.baseVars, hv]

theorem mat_ext {M N : Mat α} (h : ∀ a b, M a b = N a b) : M = N := funext fun a => funext fun b => h a b

theorem δ_add (i j : Nat) (v w : α) (a b : Nat) : δ i j (v + w) a b = δ i j v a b + δ i j w a b := by
  unfold δ; split_ifs <;> simp

theorem δ_neg (i j : Nat) (v : α) (a b : Nat) : δ i j (-v) a b = -δ i j v a b := by
  unfold δ; split_ifs <;> simp

theorem vadd_apply (N : Vec α) (i : Nat) (v : α) (a : Nat) : (Vec.add N i v) a = N a + if a = i then v else 0 := by
  unfold Vec.add Vec.put
  split_ifs with h
  · rw [h]
  · rw [add_zero]

/-- C216: resistors in parallel. -/
theorem C216_resistors (X Y : List (Elem α)) (id1 id2 id : String) (a b : Nat) (r1 r2 : α) (h1 : r1 ≠ 0) (h2 : r2 ≠ 0)
    (h : r1 + r2 ≠ 0) :
    Same (X ++ ([.R id1 a b r1, .R id2 a b r2] ++ Y)) (X ++ ([.R id a b (r1 * r2 / (r1 + r2))] ++ Y)) := by
  have hg : 1 / (r1 * r2 / (r1 + r2)) = 1 / r1 + 1 / r2 := by
    field_simp
    ring
  refine swap_same X Y ?_
  refine ⟨by simp [Elem.vde], by simp [Elem.vde], fun s => ?_, fun _ _ s => rfl, fun _ _ s => by simp [loop, ttStep, Elem.vde],
    fun _ => rfl, fun _ _ s => by simp [loop, dStep, Elem.vde], fun _ _ s => by simp [loop, acStep, Elem.vde]⟩
  simp only [loop, stamp1, hg]
  congr 2
  refine mat_ext fun i j => ?_
  simp only [Symbolic.add_apply, δ_add, δ_neg]
  ring

/-- C216: capacitors in parallel. -/
theorem C216_capacitors (X Y : List (Elem α)) (id1 id2 id : String) (a b : Nat) (c1 c2 : α) (ic1 ic2 ic : Option α) :
    Same (X ++ ([.C id1 a b c1 ic1, .C id2 a b c2 ic2] ++ Y)) (X ++ ([.C id a b (c1 + c2) ic] ++ Y)) := by
  refine swap_same X Y ?_
  refine ⟨by simp [Elem.vde], by simp [Elem.vde], fun s => rfl, fun _ _ s => rfl, fun _ _ s => by simp [loop, ttStep, Elem.vde],
    fun _ => rfl, fun _ _ s => ?_, fun _ _ s => ?_⟩
  all_goals
    simp only [loop, dStep, acStep]
    congr 2
    refine mat_ext fun i j => ?_
    simp only [Symbolic.add_apply, δ_add, δ_neg]
    ring

/-- C216: voltage-controlled current sources in parallel, controlled by one voltage. -/
theorem C216_transconductors (X Y : List (Elem α)) (id1 id2 id : String) (a b c d : Nat) (g1 g2 : α) :
    Same (X ++ ([.G id1 a b c d g1, .G id2 a b c d g2] ++ Y)) (X ++ ([.G id a b c d (g1 + g2)] ++ Y)) := by
  refine swap_same X Y ?_
  refine ⟨by simp [Elem.vde], by simp [Elem.vde], fun s => ?_, fun _ _ s => rfl, fun _ _ s => by simp [loop, ttStep, Elem.vde],
    fun _ => rfl, fun _ _ s => by simp [loop, dStep, Elem.vde], fun _ _ s => by simp [loop, acStep, Elem.vde]⟩
  simp only [loop, stamp1]
  congr 2
  refine mat_ext fun i j => ?_
  simp only [Symbolic.add_apply, δ_add, δ_neg]
  ring

/-- C216: current-controlled current sources in parallel, controlled by one current. -/
theorem C216_mirrors (X Y : List (Elem α)) (id1 id2 id src : String) (a b : Nat) (g1 g2 : α) :
    Same (X ++ ([.F id1 a b src g1, .F id2 a b src g2] ++ Y)) (X ++ ([.F id a b src (g1 + g2)] ++ Y)) := by
  refine swap_same X Y ?_
  refine ⟨by simp [Elem.vde], by simp [Elem.vde], fun s => rfl, fun circ nv s => ?_,
    fun _ _ s => by simp [loop, ttStep, Elem.vde],
    fun _ => rfl, fun _ _ s => by simp [loop, dStep, Elem.vde], fun _ _ s => by simp [loop, acStep, Elem.vde]⟩
  simp only [loop, stamp3]
  cases findVdeIndex circ src with
  | error x => rfl
  | ok k =>
    simp only
    congr 2
    refine mat_ext fun i j => ?_
    simp only [Symbolic.add_apply, δ_add, δ_neg]
    ring

/-- the source that gives what both give: their DC values, phasors and waveforms are added (spec) -/
def both (u w : Src α) : Src α where
  dc := match u.dc, w.dc with
    | some a, some b => some (a + b)
    | _, _ => none
  ac := match u.ac, w.ac with
    | some a, some b => some (a + b)
    | some a, none => some a
    | none, b => b
  timeDep := u.timeDep
  fn := match u.fn, w.fn with
    | some f, some g => some fun t => f t + g t
    | _, _ => none

/-- C216: current sources in parallel, both with a waveform or both with DC values; both have DC values or none has. -/
theorem C216_currents (X Y : List (Elem α)) (id1 id2 id : String) (a b : Nat) (u w : Src α) (ht : u.timeDep = w.timeDep)
    (hd : u.dc.isSome = w.dc.isSome) (hs : u.timeDep = false → u.dc.isSome = true)
    (hf : u.timeDep = true → u.fn.isSome = true ∧ w.fn.isSome = true) :
    Same (X ++ ([.I id1 a b u, .I id2 a b w] ++ Y)) (X ++ ([.I id a b (both u w)] ++ Y)) := by
  obtain ⟨ud, ua, ut, uf⟩ := u
  obtain ⟨wd, wa, wt, wf⟩ := w
  simp only at ht hd hs hf
  subst ht
  refine swap_same X Y ?_
  refine ⟨by simp [Elem.vde], by simp [Elem.vde], fun s => ?_, fun _ _ s => rfl, fun nv time s => ?_,
    fun N => ?_, fun _ _ s => by simp [loop, dStep, Elem.vde], fun _ _ s => by simp [loop, acStep, Elem.vde]⟩
  · cases ut with
    | true => rfl
    | false =>
      obtain ⟨x, rfl⟩ := Option.isSome_iff_exists.1 (hs rfl)
      obtain ⟨y, rfl⟩ := Option.isSome_iff_exists.1 (hd.symm.trans rfl)
      simp only [loop, stamp1, both, Src.eval, Bool.false_eq_true, if_false]
      congr 2
      funext i
      simp only [vadd_apply]
      split_ifs <;> ring
  · cases ut with
    | false => simp [loop, ttStep, both, Elem.vde]
    | true =>
      obtain ⟨f, rfl⟩ := Option.isSome_iff_exists.1 (hf rfl).1
      obtain ⟨g, rfl⟩ := Option.isSome_iff_exists.1 (hf rfl).2
      have key : ∃ x y, Src.eval ⟨ud, ua, true, some f⟩ time = some x ∧ Src.eval ⟨wd, wa, true, some g⟩ time = some y ∧
          Src.eval (both ⟨ud, ua, true, some f⟩ ⟨wd, wa, true, some g⟩) time = some (x + y) := by
        cases ud <;> cases wd <;> cases time <;> simp_all [Src.eval, both]
      obtain ⟨x, y, e1, e2, e3⟩ := key
      simp only [loop, ttStep, if_true, e1, e2, e3, Elem.vde, Bool.false_eq_true, if_false]
      rw [if_pos (show (both (⟨ud, ua, true, some f⟩ : Src α) ⟨wd, wa, true, some g⟩).timeDep = true from rfl)]
      simp only
      congr 2
      funext i
      by_cases ha : a = 0 <;> by_cases hb : b = 0 <;> simp only [ha, hb, if_true, if_false, vadd_apply] <;> split_ifs <;> ring
  · cases ua with
    | none => cases wa <;> rfl
    | some x =>
      cases wa with
      | none => rfl
      | some y =>
        simp only [List.foldl_cons, List.foldl_nil, nac1, both]
        funext i
        simp only [vadd_apply]
        split_ifs <;> ring

/-- C216: resistors and capacitors have no direction. -/
theorem C216_turn_passive (X Y : List (Elem α)) (id : String) (a b : Nat) (r : α) (ic : Option α) :
    Same (X ++ ([.R id a b r] ++ Y)) (X ++ ([.R id b a r] ++ Y)) ∧
      Same (X ++ ([.C id a b r ic] ++ Y)) (X ++ ([.C id b a r ic] ++ Y)) := by
  constructor
  · refine swap_same X Y ?_
    refine ⟨by simp [Elem.vde], by simp [Elem.vde], fun s => ?_, fun _ _ s => rfl, fun _ _ s => by simp [loop, ttStep, Elem.vde],
      fun _ => rfl, fun _ _ s => by simp [loop, dStep, Elem.vde], fun _ _ s => by simp [loop, acStep, Elem.vde]⟩
    simp only [loop, stamp1]
    congr 2
    refine mat_ext fun i j => ?_
    simp only [Symbolic.add_apply, δ_add, δ_neg]
    ring
  · refine swap_same X Y ?_
    refine ⟨by simp [Elem.vde], by simp [Elem.vde], fun s => rfl, fun _ _ s => rfl, fun _ _ s => by simp [loop, ttStep, Elem.vde],
      fun _ => rfl, fun _ _ s => ?_, fun _ _ s => ?_⟩
    all_goals
      simp only [loop, dStep, acStep]
      congr 2
      refine mat_ext fun i j => ?_
      simp only [Symbolic.add_apply, δ_add, δ_neg]
      ring

/-- the source with all values reversed (spec) -/
def opposite (u : Src α) : Src α where
  dc := u.dc.map (- ·)
  ac := u.ac.map (- ·)
  timeDep := u.timeDep
  fn := u.fn.map fun f t => - f t

/-- C216: a current source turned round is the source of the opposite current. -/
theorem C216_turn_current (X Y : List (Elem α)) (id : String) (a b : Nat) (u : Src α) :
    Same (X ++ ([.I id a b u] ++ Y)) (X ++ ([.I id b a (opposite u)] ++ Y)) := by
  have he : ∀ time, (opposite u).eval time = (u.eval time).map (- ·) := by
    intro time
    obtain ⟨d, c, t, f⟩ := u
    cases t <;> cases f <;> cases d <;> cases time <;> simp [Src.eval, opposite]
  refine swap_same X Y ?_
  refine ⟨by simp [Elem.vde], by simp [Elem.vde], fun s => ?_, fun _ _ s => rfl, fun nv time s => ?_,
    fun N => ?_, fun _ _ s => by simp [loop, dStep, Elem.vde], fun _ _ s => by simp [loop, acStep, Elem.vde]⟩
  · simp only [loop, stamp1, he, show (opposite u).timeDep = u.timeDep from rfl]
    cases u.timeDep with
    | true => rfl
    | false =>
      cases u.eval none with
      | none => rfl
      | some x =>
        simp only [Option.map_some, Bool.false_eq_true, if_false]
        congr 2
        funext i
        simp only [vadd_apply]
        split_ifs <;> ring
  · simp only [loop, ttStep, he, show (opposite u).timeDep = u.timeDep from rfl]
    cases u.timeDep with
    | false => simp [Elem.vde]
    | true =>
      cases u.eval time with
      | none => rfl
      | some x =>
        simp only [Option.map_some, if_true, Elem.vde, Bool.false_eq_true, if_false]
        congr 2
        funext i
        by_cases ha : a = 0 <;> by_cases hb : b = 0 <;> simp only [ha, hb, if_true, if_false, vadd_apply] <;> split_ifs <;> ring
  · simp only [List.foldl_cons, List.foldl_nil, nac1, opposite]
    cases u.ac with
    | none => rfl
    | some x =>
      simp only [Option.map_some]
      funext i
      simp only [vadd_apply]
      split_ifs <;> ring

/-- C216: a resistor is a controlled source that senses its own voltage. -/
theorem C216_conductance (X Y : List (Elem α)) (id id' : String) (a b : Nat) (r : α) :
    Same (X ++ ([.R id a b r] ++ Y)) (X ++ ([.G id' a b a b (1 / r)] ++ Y)) := by
  refine swap_same X Y ?_
  refine ⟨by simp [Elem.vde], by simp [Elem.vde], fun _ => rfl, fun _ _ s => rfl, fun _ _ s => by simp [loop, ttStep, Elem.vde],
    fun _ => rfl, fun _ _ s => by simp [loop, dStep, Elem.vde], fun _ _ s => by simp [loop, acStep, Elem.vde]⟩

/-- C216: controlled sources turned round have the opposite gain. -/
theorem C216_turn_controlled (X Y : List (Elem α)) (id src : String) (a b c d : Nat) (g : α) :
    Same (X ++ ([.G id a b c d g] ++ Y)) (X ++ ([.G id b a c d (-g)] ++ Y)) ∧
      Same (X ++ ([.G id a b c d g] ++ Y)) (X ++ ([.G id b a d c g] ++ Y)) ∧
      Same (X ++ ([.F id a b src g] ++ Y)) (X ++ ([.F id b a src (-g)] ++ Y)) := by
  refine ⟨?_, ?_, ?_⟩
  · refine swap_same X Y ?_
    refine ⟨by simp [Elem.vde], by simp [Elem.vde], fun s => ?_, fun _ _ s => rfl, fun _ _ s => by simp [loop, ttStep, Elem.vde],
      fun _ => rfl, fun _ _ s => by simp [loop, dStep, Elem.vde], fun _ _ s => by simp [loop, acStep, Elem.vde]⟩
    simp only [loop, stamp1]
    congr 2
    refine mat_ext fun i j => ?_
    simp only [Symbolic.add_apply, δ_add, δ_neg]
    ring
  · refine swap_same X Y ?_
    refine ⟨by simp [Elem.vde], by simp [Elem.vde], fun s => ?_, fun _ _ s => rfl, fun _ _ s => by simp [loop, ttStep, Elem.vde],
      fun _ => rfl, fun _ _ s => by simp [loop, dStep, Elem.vde], fun _ _ s => by simp [loop, acStep, Elem.vde]⟩
    simp only [loop, stamp1]
    congr 2
    refine mat_ext fun i j => ?_
    simp only [Symbolic.add_apply, δ_add, δ_neg]
    ring
  · refine swap_same X Y ?_
    refine ⟨by simp [Elem.vde], by simp [Elem.vde], fun s => rfl, fun circ nv s => ?_,
      fun _ _ s => by simp [loop, ttStep, Elem.vde],
      fun _ => rfl, fun _ _ s => by simp [loop, dStep, Elem.vde], fun _ _ s => by simp [loop, acStep, Elem.vde]⟩
    simp only [loop, stamp3]
    cases findVdeIndex circ src with
    | error x => rfl
    | ok k =>
      simp only
      congr 2
      refine mat_ext fun i j => ?_
      simp only [Symbolic.add_apply, δ_add, δ_neg]
      ring

/-- 2 and 2 ohm beside each other, in a circuit that can be assembled -/
example : (2 : ℚ) ≠ 0 ∧ (2 : ℚ) + 2 ≠ 0 ∧
    (∃ s, generate ([Elem.V "V1" 1 0 { dc := some (1 : ℚ) }] ++ ([.R "R1" 1 0 2, .R "R2" 1 0 2] ++ [])) 2 = .ok s ∧ s.M 1 1 = 1) := by
  refine ⟨by norm_num, by norm_num, ?_⟩
  refine ⟨_, rfl, ?_⟩
  simp [Mat.put, Mat.add]
  norm_num

/-- a DC source and one with a phasor as well -/
example : (both (⟨some (1 : ℚ), none, false, none⟩) ⟨some 2, some 5, false, none⟩).dc = some 3 ∧
    (both (⟨some (1 : ℚ), none, false, none⟩) ⟨some 2, some 5, false, none⟩).ac = some 5 := by
  refine ⟨?_, rfl⟩
  simp [both]
  norm_num

end Verif.Parallel
