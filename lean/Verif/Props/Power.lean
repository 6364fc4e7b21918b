import Verif.Props.Results
import Mathlib.Tactic.Ring
import Mathlib.Tactic.LinearCombination

/-! # Total power (C51) -/

namespace Verif.Results
open Verif.Circuit Verif.Mna

variable {α : Type} [Field α]

/-- The sources. -/
def isSource : Elem α → Bool
  | .V .. | .I .. | .E .. | .G .. | .F .. | .H .. => true
  | _ => false

/-- Sum over the elements chosen of voltage across times current through (into terminal 1, out of terminal 2), the branch
numbers starting from `k`. -/
def absorbed (sel : Elem α → Bool) (circ : List (Elem α)) (nv : Nat) (x : Vec α) (val : Src α → α) :
    List (Elem α) → Nat → α
  | [], _ => 0
  | e :: t, k =>
    (if sel e then (x (term e).1 - x (term e).2) * current circ nv x val k e else 0)
      + absorbed sel circ nv x val t (k + if e.vde then 1 else 0)

/-- The value of an independent source in an operating point. -/
def opVal (s : Src α) : α := (s.eval none).getD 0

/-- No G or H source; the controlling element of an F source is a V source; current sources have a value. -/
def PowerOk (circ : List (Elem α)) : Elem α → Prop
  | .G .. => False
  | .H .. => False
  | .I _ _ _ s => (s.eval none).isSome = true
  | .F _ _ _ src _ => (∃ e ∈ vdes circ, upper e.id = upper src) ∧
      ∀ e ∈ vdes circ, upper e.id = upper src → ∃ id n1 n2 s, e = .V id n1 n2 s
  | _ => True

theorem upper_lower (a b : String) : upper a = upper b ↔ lower a = lower b := map_case a.toList b.toList

omit [Field α] in
theorem findSense_spec (src : String) : ∀ (l : List (Elem α)) (k : Nat),
    (∃ e ∈ vdes l, upper e.id = upper src) →
    (∀ e ∈ vdes l, upper e.id = upper src → ∃ id n1 n2 s, e = .V id n1 n2 s) →
    findSense src l k = some (k + (vdes l).findIdx (fun e => decide (upper e.id = upper src)))
  | [], _, h, _ => by obtain ⟨e, he, _⟩ := h; simp [vdes] at he
  | e :: r, k, h, hv => by
    rw [findSense]
    by_cases hvde : e.vde = true
    · have hcons : vdes (e :: r) = e :: vdes r := by rw [vdes_cons, if_pos hvde]
      rw [hcons] at h hv ⊢
      rw [if_pos hvde, List.findIdx_cons]
      by_cases hid : upper e.id = upper src
      · obtain ⟨id, n1, n2, s, rfl⟩ := hv e (by simp) hid
        have : senseHit src (Elem.V id n1 n2 s : Elem α) = true := by
          exact decide_eq_true ((upper_lower _ _).1 hid)
        simp [this, hid]
      · have ih := findSense_spec src r (k + 1)
          (by
            obtain ⟨e', he', h'⟩ := h
            rcases List.mem_cons.1 he' with rfl | he'
            · exact absurd h' hid
            · exact ⟨e', he', h'⟩)
          (fun e' he' => hv e' (by simp [he']))
        have hno : senseHit src e = false := by
          cases e with
          | V id a b s => exact decide_eq_false (fun hl => hid ((upper_lower _ _).2 hl))
          | _ => rfl
        rw [hno, ih]
        simp [hid]; omega
    · have hcons : vdes (e :: r) = vdes r := by rw [vdes_cons, if_neg hvde]
      rw [hcons] at h hv ⊢
      rw [if_neg hvde]
      exact findSense_spec src r k h hv

theorem portV_eq (x : Vec α) (h0 : x 0 = 0) (n1 n2 : Nat) : portV (fun i => x (i + 1)) n1 n2 = x n1 - x n2 := by
  have h : ∀ n : Nat, (if n ≠ 0 then x (n - 1 + 1) else 0) = x n := by
    intro n
    by_cases hn : n = 0
    · simp [hn, h0]
    · rw [if_pos hn, Nat.sub_add_cancel (Nat.pos_of_ne_zero hn)]
  simp only [portV, h]

theorem power_loop (circ : List (Elem α)) (nv size : Nat) (hnv : 0 < nv) (x : Vec α) (h0 : x 0 = 0) :
    ∀ (l : List (Elem α)) (p : α) (k : Nat), (∀ e ∈ l, PowerOk circ e) →
    ∃ k', loop (powerStep circ (nv - 1) size (fun i => x (i + 1))) (p, k) l
      = .ok (p - absorbed isSource circ nv x opVal l k, k')
  | [], p, k, _ => ⟨k, by simp [loop, absorbed]⟩
  | e :: r, p, k, h => by
    have hx : ∀ j, x (nv - 1 + j + 1) = x (nv + j) := by intro j; congr 1; omega
    have hr := fun p' => fun k' => power_loop circ nv size hnv x h0 r p' k' (fun e' he' => h e' (by simp [he']))
    have he := h e (by simp)
    cases e with
    | G => exact he.elim
    | H => exact he.elim
    | V id a b s =>
      obtain ⟨k', hk⟩ := hr (p - (x a - x b) * x (nv + k)) (k + 1)
      refine ⟨k', ?_⟩
      simp only [loop, powerStep, portV_eq x h0, hx]
      rw [hk]
      simp only [absorbed, isSource, if_true, term, current, Elem.vde]
      congr 2; ring
    | E id a b c d v =>
      obtain ⟨k', hk⟩ := hr (p - (x a - x b) * x (nv + k)) (k + 1)
      refine ⟨k', ?_⟩
      simp only [loop, powerStep, portV_eq x h0, hx]
      rw [hk]
      simp only [absorbed, isSource, if_true, term, current, Elem.vde]
      congr 2; ring
    | I id a b s =>
      obtain ⟨i, hi⟩ := Option.isSome_iff_exists.1 (show (s.eval none).isSome = true from he)
      obtain ⟨k', hk⟩ := hr (p - (x a - x b) * i) k
      refine ⟨k', ?_⟩
      simp only [loop, powerStep, portV_eq x h0, hi]
      rw [hk]
      simp only [absorbed, isSource, if_true, term, current, opVal, hi, Option.getD_some, Elem.vde, Bool.false_eq_true,
        if_false, Nat.add_zero]
      congr 2; ring
    | F id a b src v =>
      have hs := findSense_spec src circ 0 he.1 he.2
      obtain ⟨k', hk⟩ := hr (p - (x a - x b) * v * x (nv + branchOf circ src)) k
      refine ⟨k', ?_⟩
      simp only [loop, powerStep, portV_eq x h0, hs]
      have hb : (vdes circ).findIdx (fun e => decide (upper e.id = upper src)) = branchOf circ src := rfl
      rw [Nat.zero_add, hb]
      simp only [hx]
      rw [hk]
      simp only [absorbed, isSource, if_true, term, current, Elem.vde, Bool.false_eq_true, if_false, Nat.add_zero]
      congr 2; ring
    | L id a b v ic cc =>
      obtain ⟨k', hk⟩ := hr p (k + 1)
      refine ⟨k', ?_⟩
      simp only [loop, powerStep]
      rw [hk]
      simp [absorbed, isSource, Elem.vde]
    | R id a b v =>
      obtain ⟨k', hk⟩ := hr p k
      exact ⟨k', by simp only [loop, powerStep]; rw [hk]; simp [absorbed, isSource, Elem.vde]⟩
    | C id a b v ic =>
      obtain ⟨k', hk⟩ := hr p k
      exact ⟨k', by simp only [loop, powerStep]; rw [hk]; simp [absorbed, isSource, Elem.vde]⟩
    | K c =>
      obtain ⟨k', hk⟩ := hr p k
      exact ⟨k', by simp only [loop, powerStep]; rw [hk]; simp [absorbed, isSource, Elem.vde]⟩
    | NL id a b c d e =>
      obtain ⟨k', hk⟩ := hr p k
      exact ⟨k', by simp only [loop, powerStep]; rw [hk]; simp [absorbed, isSource, Elem.vde]⟩

/-- C51 (partial: no voltage-controlled current source, no current-controlled voltage source, F sources controlled by V
sources): the total is minus the sum over the sources of voltage times current, whatever the unknowns are. -/
theorem C51_sources_partial (circ : List (Elem α)) (nv size : Nat) (hnv : 0 < nv) (x : Vec α) (h0 : x 0 = 0)
    (h : ∀ e ∈ circ, PowerOk circ e) :
    totPower circ (nv - 1) size (fun i => x (i + 1)) = .ok (-absorbed isSource circ nv x opVal circ 0) := by
  obtain ⟨k', hk⟩ := power_loop circ nv size hnv x h0 circ 0 0 h
  rw [totPower, hk, zero_sub]

/-- Tellegen: when Kirchhoff's current law holds at all nodes, the powers of all elements add up to zero. -/
theorem tellegen (circ : List (Elem α)) (nv : Nat) (hnv : 0 < nv) (x : Vec α) (val : Src α → α)
    (he : ∀ e ∈ circ, NodesLt nv e) (hk : ∀ r < nv, kcl circ nv x val circ 0 r = 0) :
    absorbed (fun _ => true) circ nv x val circ 0 = 0 := by
  have main : ∀ (l : List (Elem α)) (k : Nat), (∀ e ∈ l, NodesLt nv e) →
      ∑ r ∈ Finset.range nv, x r * kcl circ nv x val l k r = absorbed (fun _ => true) circ nv x val l k := by
    intro l
    induction l with
    | nil => intro k _; simp [kcl, absorbed]
    | cons e t ih =>
      intro k hl
      have hn := (hl e (List.mem_cons_self ..)).term_lt' hnv
      simp only [kcl, absorbed, if_true, mul_add, Finset.sum_add_distrib]
      rw [ih _ (fun e' h' => hl e' (List.mem_cons_of_mem _ h'))]
      congr 1
      simp only [inj, mul_sub, Finset.sum_sub_distrib, mul_ite, mul_zero]
      rw [Finset.sum_ite_eq' (Finset.range nv) (term e).1, Finset.sum_ite_eq' (Finset.range nv) (term e).2]
      simp [hn.1, hn.2]
      ring
  rw [← main circ 0 he]
  apply Finset.sum_eq_zero
  intro r hr
  rw [hk r (Finset.mem_range.1 hr), mul_zero]

/-- Power turned into heat in the resistors. -/
def heat (x : Vec α) : List (Elem α) → α
  | [] => 0
  | .R _ a b r :: t => (x a - x b) ^ 2 / r + heat x t
  | _ :: t => heat x t

theorem absorbed_split (circ : List (Elem α)) (nv : Nat) (x : Vec α) (val : Src α → α) :
    ∀ (l : List (Elem α)) (k : Nat),
      (∀ e ∈ l, ∀ id a b v ic cc, e = .L id a b v ic cc → x a = x b) →
      absorbed (fun _ => true) circ nv x val l k = absorbed isSource circ nv x val l k + heat x l
  | [], k, _ => by simp [absorbed, heat]
  | e :: t, k, h => by
    have ih := fun k' => absorbed_split circ nv x val t k' (fun e' he' => h e' (by simp [he']))
    cases e with
    | R id a b r =>
      simp only [absorbed, isSource, heat, if_true, Bool.false_eq_true, if_false, ih, term, current, Elem.vde]
      ring
    | L id a b v ic cc =>
      have hab := h _ (by simp) id a b v ic cc rfl
      simp only [absorbed, isSource, heat, if_true, Bool.false_eq_true, if_false, ih, term, current, Elem.vde, hab]
      ring
    | C | K | NL =>
      simp only [absorbed, isSource, heat, if_true, Bool.false_eq_true, if_false, ih, term, current, Elem.vde]
      ring
    | V | I | E | G | F | H =>
      simp only [absorbed, isSource, heat, if_true, Bool.false_eq_true, if_false, ih, term, current, Elem.vde]
      ring

/-- C51 (partial, as above; linear circuit with static sources): for a solution of the assembled equations the total power is
the power dissipated in the resistors. -/
theorem C51_dissipated_partial {nv : Nat} {circ : List (Elem α)} {s : Sys α} (hnv : 0 < nv)
    (he : ∀ e ∈ circ, NodesLt nv e) (hp : ∀ e ∈ circ, Proper e) (hg : generate circ nv = .ok s)
    (hpo : ∀ e ∈ circ, PowerOk circ e)
    (hst : ∀ src : Src α, (∃ id a b, Elem.V id a b src ∈ circ) ∨ (∃ id a b, Elem.I id a b src ∈ circ) → src.timeDep = false)
    (x : Vec α) (h0 : x 0 = 0) (hsol : ∀ r < s.size, mulVec s.size s.M x r + s.N r = 0) :
    totPower circ (nv - 1) (s.size - 1) (fun i => x (i + 1)) = .ok (heat x circ) := by
  obtain ⟨hz, hrow⟩ := generate_row x he hp hg
  have hsame : ∀ (l : List (Elem α)) (k r : Nat), (∀ e ∈ l, e ∈ circ) →
      kcl circ nv x staticVal l k r = kcl circ nv x opVal l k r := by
    intro l
    induction l with
    | nil => intros; rfl
    | cons e t ih =>
      intro k r hm
      rw [kcl, kcl, ih _ _ (fun e' h' => hm e' (by simp [h']))]
      congr 2
      cases e with
      | I id a b src =>
        have hs := hst src (Or.inr ⟨id, a, b, hm _ (by simp)⟩)
        simp [current, staticVal, opVal, hs, Src.eval_static]
      | _ => rfl
  have hk : ∀ r < nv, kcl circ nv x opVal circ 0 r = 0 := by
    intro r hr
    rw [← hsame circ 0 r (fun _ h => h), ← C07_node_rows he hp hg x r hr]
    exact hsol r (by omega)
  have hL : ∀ e ∈ circ, ∀ id a b v ic cc, e = .L id a b v ic cc → x a = x b := by
    intro e hm id a b v ic cc hE
    subst hE
    have hmv : (Elem.L id a b v ic cc : Elem α) ∈ vdes circ := List.mem_filter.2 ⟨hm, rfl⟩
    obtain ⟨k, hk1, hk2⟩ := List.mem_iff_getElem.1 hmv
    have hk3 : (vdes circ)[k]? = some (.L id a b v ic cc) := by rw [List.getElem?_eq_getElem hk1, hk2]
    have hr := hrow (nv + k)
    rw [sum_zero_of _ _ (fun e he' => c1_high x (he e he') _ (by omega)),
      sum_zero_of _ _ (fun e he' => c3_high x (he e he') _ (by omega)),
      c2sum_branch x (le_refl nv) he hk3, zero_add, add_zero] at hr
    have := hsol (nv + k) (by omega)
    rw [this] at hr
    simp only [lawCoded] at hr
    exact (sub_eq_zero.1 hr.symm)
  have ht := tellegen circ nv hnv x opVal he hk
  rw [absorbed_split circ nv x opVal circ 0 hL] at ht
  rw [C51_sources_partial circ nv (s.size - 1) hnv x h0 hpo]
  congr 1
  linear_combination -ht

/-- The hypotheses are met: a divider with an inductor and an F source. -/
def powerDemo : List (Elem ℚ) :=
  [.V "V1" 1 0 { dc := some 2 }, .R "R1" 1 2 1, .L "L1" 2 3 1 none [], .R "R2" 3 0 1, .F "F1" 3 0 "v1" 1, .C "C1" 2 0 1 none]

def powerDemoX : Vec ℚ := fun i =>
  if i = 1 then 2 else if i = 2 ∨ i = 3 then 4/3 else if i = 4 then -2/3 else if i = 5 then 2/3 else 0

example : (∀ e ∈ powerDemo, NodesLt 4 e) ∧ (∀ e ∈ powerDemo, Proper e) ∧ (∀ e ∈ powerDemo, PowerOk powerDemo e) := by
  refine ⟨by simp [powerDemo, NodesLt], by simp [powerDemo, Proper], ?_⟩
  have hv : vdes powerDemo = [.V "V1" 1 0 { dc := some 2 }, .L "L1" 2 3 1 none []] := rfl
  have hF : PowerOk powerDemo (.F "F1" 3 0 "v1" 1) := by
    rw [PowerOk, hv]
    refine ⟨⟨.V "V1" 1 0 { dc := some 2 }, by simp, by decide +kernel⟩, ?_⟩
    intro e hm hu
    simp only [List.mem_cons, List.not_mem_nil, or_false] at hm
    rcases hm with rfl | rfl
    · exact ⟨_, _, _, _, rfl⟩
    · exact absurd hu (by decide +kernel)
  intro e hm
  simp only [powerDemo, List.mem_cons, List.not_mem_nil, or_false] at hm
  rcases hm with rfl | rfl | rfl | rfl | rfl | rfl
  iterate 4 exact trivial
  · exact hF
  · exact trivial

example :
    let s := okOr ⟨0, fun _ _ => 0, fun _ => 0⟩ (generate powerDemo 4)
    (∀ r < 6, mulVec s.size s.M powerDemoX r + s.N r = 0) ∧ s.size = 6
      ∧ (totPower powerDemo 3 5 (fun i => powerDemoX (i + 1))).toOption = some (20/9) ∧ heat powerDemoX powerDemo = 20/9 := by
  decide +kernel

/-- A transconductor loading a source: the current is 2·V(1), the code takes the voltage at its own output instead. -/
def gDemo : List (Elem ℚ) := [.V "V1" 1 0 { dc := some 1 }, .G "G1" 2 0 1 0 2, .R "R1" 2 0 1]

/-- C51 fails for a voltage-controlled current source: the controlling voltage is read at the output nodes; the total is -8
where the resistor takes 4. -/
theorem C51_vccs_refuted :
    let s := okOr ⟨0, fun _ _ => 0, fun _ => 0⟩ (generate gDemo 3)
    let x : Vec ℚ := fun i => if i = 1 then 1 else if i = 2 then -2 else 0
    (∀ r < 4, mulVec s.size s.M x r + s.N r = 0)
      ∧ (totPower gDemo 2 3 (fun i => x (i + 1))).toOption = some (-8) ∧ heat x gDemo = 4 := by
  decide +kernel

/-- C51 fails for a current-controlled voltage source: its power has the wrong sign. -/
theorem C51_ccvs_refuted :
    let s := okOr ⟨0, fun _ _ => 0, fun _ => 0⟩ (generate ccvsDemo 3)
    let x : Vec ℚ := fun i => if i = 1 then 1 else if i = 2 then 2 else if i = 3 then -1 else if i = 4 then -2 else 0
    (∀ r < 5, mulVec s.size s.M x r + s.N r = 0)
      ∧ (totPower ccvsDemo 2 4 (fun i => x (i + 1))).toOption = some (-3) ∧ heat x ccvsDemo = 5 := by
  decide +kernel

/-- An unconnected H source (both controlled and controlling current zero) before a source that is loaded. -/
def hFirst : List (Elem ℚ) :=
  [.V "V0" 1 0 { dc := some 0 }, .H "H1" 2 0 "V0" 2, .V "V1" 3 0 { dc := some 3 }, .R "R1" 3 0 1]

/-- C51: an H source, which is not counted, makes the sources after it take the current of the one before: here the total is
0 although a source delivers 9. -/
theorem C51_index_refuted :
    let s := okOr ⟨0, fun _ _ => 0, fun _ => 0⟩ (generate hFirst 4)
    let x : Vec ℚ := fun i => if i = 3 then 3 else if i = 6 then -3 else 0
    (∀ r < 7, mulVec s.size s.M x r + s.N r = 0)
      ∧ (totPower hFirst 3 6 (fun i => x (i + 1))).toOption = some 0 ∧ heat x hFirst = 9 := by
  decide +kernel

/-- C51: an F source controlled by an inductor is solved but has no power: an exception. -/
theorem C51_inductor_refuted (nv1 size : Nat) (y : Nat → ℚ) :
    (generate ([.L "L1" 1 0 1 none [], .F "F1" 2 0 "L1" 1] : List (Elem ℚ)) 3).toOption.isSome = true
      ∧ totPower ([.L "L1" 1 0 1 none [], .F "F1" 2 0 "L1" 1] : List (Elem ℚ)) nv1 size y = .error .exn := by
  constructor
  · decide +kernel
  · rfl

end Verif.Results
