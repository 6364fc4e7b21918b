import Verif.Props.Recip
import Verif.Props.Pz

/-!
C140: complex power and natural frequencies of circuits of resistors, capacitors, inductors, couplings and independent
sources. The element values are real, the phasors of the sources and the unknowns are complex.
-/

namespace Verif.Stable
open Verif.Circuit Verif.Mna Verif.Dyn Verif.Rlc Verif.Recip Complex

/-- real matrices used with complex unknowns -/
def cast (M : Mat ℝ) : Mat ℂ := fun i j => (M i j : ℂ)

def re (z : Vec ℂ) : Vec ℝ := fun r => (z r).re
def im (z : Vec ℂ) : Vec ℝ := fun r => (z r).im

theorem mulVec_cast (S : Nat) (M : Mat ℝ) (z : Vec ℂ) (r : Nat) :
    mulVec S (cast M) z r = ((mulVec S M (re z) r : ℝ) : ℂ) + I * ((mulVec S M (im z) r : ℝ) : ℂ) := by
  unfold mulVec cast
  push_cast
  rw [Finset.mul_sum, ← Finset.sum_add_distrib]
  refine Finset.sum_congr rfl fun j _ => ?_
  apply Complex.ext <;> simp [re, im]

/-- the hermitian form of some rows of a real matrix -/
theorem herm (S n o : Nat) (M : Mat ℝ) (z : Vec ℂ) :
    ∑ r ∈ Finset.range n, (starRingEnd ℂ) (z (o + r)) * mulVec S (cast M) z (o + r) =
      ((∑ r ∈ Finset.range n, re z (o + r) * mulVec S M (re z) (o + r) +
        ∑ r ∈ Finset.range n, im z (o + r) * mulVec S M (im z) (o + r) : ℝ) : ℂ) +
      I * ((∑ r ∈ Finset.range n, re z (o + r) * mulVec S M (im z) (o + r) -
        ∑ r ∈ Finset.range n, im z (o + r) * mulVec S M (re z) (o + r) : ℝ) : ℂ) := by
  rw [← Finset.sum_add_distrib, ← Finset.sum_sub_distrib]
  push_cast
  rw [Finset.mul_sum, ← Finset.sum_add_distrib]
  refine Finset.sum_congr rfl fun r _ => ?_
  rw [mulVec_cast]
  apply Complex.ext <;> simp [re, im] <;> ring

/-- power turned into heat in a resistor (for phasors: twice the average power) -/
noncomputable def heat (z : Vec ℂ) : Elem ℝ → ℝ
  | .R _ a b r => normSq (z a - z b) / r
  | _ => 0

/-- energy stored in a capacitor (for phasors: four times the average energy) -/
noncomputable def elec (z : Vec ℂ) : Elem ℝ → ℝ
  | .C _ a b c _ => c * normSq (z a - z b)
  | _ => 0

/-- energy stored in the inductors and couplings: the form of the real parts and that of the imaginary parts -/
noncomputable def magn (circ : List (Elem ℝ)) (nv : Nat) (z : Vec ℂ) : ℝ :=
  magForm circ nv (re z) (re z) + magForm circ nv (im z) (im z)

theorem heat_eq (z : Vec ℂ) (l : List (Elem ℝ)) :
    (l.map (resForm (re z) (re z))).sum + (l.map (resForm (im z) (im z))).sum = (l.map (heat z)).sum := by
  rw [← List.sum_map_add]
  refine congrArg List.sum (List.map_congr_left fun e _ => ?_)
  cases e <;> simp [resForm, heat, re, im, normSq_apply]
  ring

theorem elec_eq (z : Vec ℂ) (l : List (Elem ℝ)) :
    (l.map (capForm (re z) (re z))).sum + (l.map (capForm (im z) (im z))).sum = (l.map (elec z)).sum := by
  rw [← List.sum_map_add]
  refine congrArg List.sum (List.map_congr_left fun e _ => ?_)
  cases e <;> simp [capForm, elec, re, im, normSq_apply]
  ring

theorem size_eq (z : Vec ℂ) (n : Nat) : ∑ r ∈ Finset.range n, re z r * re z r +
    ∑ r ∈ Finset.range n, im z r * im z r = ∑ r ∈ Finset.range n, normSq (z r) := by
  rw [← Finset.sum_add_distrib]
  refine Finset.sum_congr rfl fun r _ => ?_
  rw [normSq_apply]; rfl

/-- balance of complex power: resistors, conductance to ground, capacitors, inductors and sources -/
theorem balance {nv : Nat} {circ : List (Elem ℝ)} {sys : Sys ℝ} {D : Mat ℝ} {cmin g : ℝ} (hnv : 0 < nv)
    (he : ∀ e ∈ circ, NodesLt nv e) (hp : ∀ e ∈ circ, TwoPole e)
    (hsym : ∀ x y, magForm circ nv x y = magForm circ nv y x)
    (h : generate circ nv = .ok sys) (hd : generateD circ nv sys.size cmin = .ok D)
    {s : ℂ} {N : Vec ℂ} {z : Vec ℂ} (hz : Solution nv sys.size (cast sys.M) (cast D) N s g z) :
    (((circ.map (heat z)).sum + g * ∑ r ∈ Finset.range nv, normSq (z r) : ℝ) : ℂ) +
      s * (((circ.map (elec z)).sum + cmin * ∑ r ∈ Finset.range nv, normSq (z r) : ℝ) : ℂ) +
      (starRingEnd ℂ) s * (magn circ nv z : ℂ) +
      (∑ r ∈ Finset.range nv, (starRingEnd ℂ) (z r) * N r -
        (starRingEnd ℂ) (∑ j ∈ Finset.range (vdes circ).length, (starRingEnd ℂ) (z (nv + j)) * N (nv + j))) = 0 := by
  have hS := (rows_linear he hp h (re z)).1
  have z0 := hz.1
  have r0 : re z 0 = 0 := by simp [re, z0]
  have i0 : im z 0 = 0 := by simp [im, z0]
  -- node rows
  have n1 : ∑ r ∈ Finset.range nv, (starRingEnd ℂ) (z (0 + r)) * mulVec sys.size (cast sys.M) z (0 + r) +
      s * ∑ r ∈ Finset.range nv, (starRingEnd ℂ) (z (0 + r)) * mulVec sys.size (cast D) z (0 + r) +
      (g : ℂ) * ∑ r ∈ Finset.range nv, ((normSq (z r) : ℝ) : ℂ) +
      ∑ r ∈ Finset.range nv, (starRingEnd ℂ) (z r) * N r = 0 := by
    rw [Finset.mul_sum, Finset.mul_sum, ← Finset.sum_add_distrib, ← Finset.sum_add_distrib,
      ← Finset.sum_add_distrib]
    refine Finset.sum_eq_zero fun r hr => ?_
    have hr := Finset.mem_range.1 hr
    rw [Nat.zero_add]
    by_cases h0 : r = 0
    · subst h0; simp [z0]
    · have := hz.2 r (Nat.pos_of_ne_zero h0) (by omega)
      rw [if_pos hr] at this
      rw [← Complex.mul_conj]
      linear_combination (starRingEnd ℂ) (z r) * this
  have b1 : ∑ j ∈ Finset.range (vdes circ).length,
        (starRingEnd ℂ) (z (nv + j)) * mulVec sys.size (cast sys.M) z (nv + j) +
      s * ∑ j ∈ Finset.range (vdes circ).length,
        (starRingEnd ℂ) (z (nv + j)) * mulVec sys.size (cast D) z (nv + j) +
      ∑ j ∈ Finset.range (vdes circ).length, (starRingEnd ℂ) (z (nv + j)) * N (nv + j) = 0 := by
    rw [Finset.mul_sum, ← Finset.sum_add_distrib, ← Finset.sum_add_distrib]
    refine Finset.sum_eq_zero fun j hj => ?_
    have hj := Finset.mem_range.1 hj
    have := hz.2 (nv + j) (by omega) (by omega)
    rw [if_neg (by omega)] at this
    linear_combination (starRingEnd ℂ) (z (nv + j)) * this
  have sw : ∀ x y : Vec ℝ, brSum (fun j e => x (nv + j) * (y (term e).1 - y (term e).2)) circ 0 =
      brSum (fun j e => (y (term e).1 - y (term e).2) * x (nv + j)) circ 0 :=
    fun x y => brSum_congr _ _ _ _ fun k e => mul_comm _ _
  have rs : ∀ x y : Vec ℝ, (circ.map (resForm x y)).sum = (circ.map (resForm y x)).sum := fun x y => by
    rw [show resForm x y = resForm y x from funext (resForm_symm _ _)]
  have cs : ∀ x y : Vec ℝ, (circ.map (capForm x y)).sum = (circ.map (capForm y x)).sum := fun x y => by
    rw [show capForm x y = capForm y x from funext (capForm_symm _ _)]
  have ns : ∑ r ∈ Finset.range nv, re z r * im z r = ∑ r ∈ Finset.range nv, im z r * re z r := by
    simp only [mul_comm]
  rw [hS] at hd
  rw [herm, herm] at n1
  rw [herm, herm] at b1
  simp only [Nat.zero_add, static_node hnv he hp h] at n1
  simp only [static_branch he hp h, sw] at b1
  rw [hS] at n1 b1
  rw [dynamic_node hnv he hd _ _ r0 r0, dynamic_node hnv he hd _ _ i0 i0, dynamic_node hnv he hd _ _ r0 i0,
    dynamic_node hnv he hd _ _ i0 r0, rs (im z) (re z), cs (im z) (re z), ns] at n1
  rw [dynamic_branch hnv he hp hd _ _ r0, dynamic_branch hnv he hp hd _ _ i0, dynamic_branch hnv he hp hd _ _ i0,
    dynamic_branch hnv he hp hd _ _ r0, hsym (im z) (re z)] at b1
  have b2 := congrArg (starRingEnd ℂ) b1
  simp only [map_add, map_mul, Complex.conj_ofReal, Complex.conj_I, map_zero] at b2
  rw [← heat_eq, ← elec_eq, ← size_eq, magn]
  have sc : ∑ r ∈ Finset.range nv, ((normSq (z r) : ℝ) : ℂ) = ((∑ r ∈ Finset.range nv, re z r * re z r +
      ∑ r ∈ Finset.range nv, im z r * im z r : ℝ) : ℂ) := by
    rw [size_eq]; push_cast; rfl
  rw [sc] at n1
  push_cast at n1 b2 ⊢
  linear_combination n1 - b2

/-! ### Power of the sources -/

def liftC (c : Coupling ℝ) : Coupling ℂ := ⟨c.id, c.L1, c.L2, c.k, c.M⟩

/-- the circuit with the phasors `ph` of its sources, by name -/
def lift (ph : String → Option ℂ) : Elem ℝ → Elem ℂ
  | .R id a b v => .R id a b v
  | .C id a b v ic => .C id a b v (ic.map Complex.ofReal)
  | .L id a b v ic cp => .L id a b v (ic.map Complex.ofReal) (cp.map liftC)
  | .K c => .K (liftC c)
  | .V id a b s => .V id a b { dc := s.dc.map Complex.ofReal, ac := ph id }
  | .I id a b s => .I id a b { dc := s.dc.map Complex.ofReal, ac := ph id }
  | .E id a b c d v => .E id a b c d v
  | .G id a b c d v => .G id a b c d v
  | .F id a b s v => .F id a b s v
  | .H id a b s v => .H id a b s v
  | .NL id a b s p o => .NL id a b s p o

/-- power taken up by a current source: conjugate of its voltage times its phasor -/
noncomputable def takenI (z : Vec ℂ) : Elem ℂ → ℂ
  | .I _ a b s => (starRingEnd ℂ) (z a - z b) * acVal s
  | _ => 0

/-- power taken up by a voltage source: conjugate of its phasor times its current -/
noncomputable def takenV (nv : Nat) (z : Vec ℂ) (k : Nat) : Elem ℂ → ℂ
  | .V _ _ _ s => (starRingEnd ℂ) (acVal s) * z (nv + k)
  | _ => 0

theorem lift_vde (ph : String → Option ℂ) (e : Elem ℝ) : (lift ph e).vde = e.vde := by cases e <;> rfl

theorem lift_nodes {ph : String → Option ℂ} {nv : Nat} {e : Elem ℝ} (h : NodesLt nv e) : NodesLt nv (lift ph e) := by
  cases e <;> exact h

theorem vdes_lift (ph : String → Option ℂ) (l : List (Elem ℝ)) : (vdes (l.map (lift ph))).length = (vdes l).length := by
  induction l with
  | nil => rfl
  | cons e t ih =>
    rw [List.map_cons, vdes_cons, vdes_cons, lift_vde]
    split_ifs
    · rw [List.length_cons, List.length_cons, ih]
    · exact ih

theorem brSum_conj (f : Nat → Elem ℂ → ℂ) (l : List (Elem ℂ)) (k : Nat) :
    (starRingEnd ℂ) (brSum f l k) = brSum (fun j e => (starRingEnd ℂ) (f j e)) l k := by
  induction l generalizing k with
  | nil => simp [brSum]
  | cons e t ih =>
    simp only [brSum, map_add, ih]
    congr 1
    split <;> simp

theorem sources {nv : Nat} {B : List (Elem ℂ)} (hnv : 0 < nv) (he : ∀ e ∈ B, NodesLt nv e) (z : Vec ℂ) :
    ∑ r ∈ Finset.range nv, (starRingEnd ℂ) (z r) * (genNac B nv).2 r -
      (starRingEnd ℂ) (∑ j ∈ Finset.range (vdes B).length, (starRingEnd ℂ) (z (nv + j)) * (genNac B nv).2 (nv + j)) =
      (B.map (takenI z)).sum + brSum (takenV nv z) B 0 := by
  have h1 := drive_ac hnv he (fun r => if r < nv then (starRingEnd ℂ) (z r) else 0)
  have h2 := drive_ac hnv he (fun r => if r < nv then 0 else (starRingEnd ℂ) (z r))
  rw [Finset.sum_range_add] at h1 h2
  have a1 : ∑ j ∈ Finset.range (vdes B).length, (if nv + j < nv then (starRingEnd ℂ) (z (nv + j)) else 0) *
      (genNac B nv).2 (nv + j) = 0 := Finset.sum_eq_zero fun j _ => by rw [if_neg (by omega), zero_mul]
  have a2 : ∑ r ∈ Finset.range nv, (if r < nv then (0 : ℂ) else (starRingEnd ℂ) (z r)) * (genNac B nv).2 r = 0 :=
    Finset.sum_eq_zero fun r hr => by rw [if_pos (Finset.mem_range.1 hr), zero_mul]
  have a3 : ∑ r ∈ Finset.range nv, (if r < nv then (starRingEnd ℂ) (z r) else 0) * (genNac B nv).2 r =
      ∑ r ∈ Finset.range nv, (starRingEnd ℂ) (z r) * (genNac B nv).2 r :=
    Finset.sum_congr rfl fun r hr => by rw [if_pos (Finset.mem_range.1 hr)]
  have a4 : ∑ j ∈ Finset.range (vdes B).length, (if nv + j < nv then (0 : ℂ) else (starRingEnd ℂ) (z (nv + j))) *
      (genNac B nv).2 (nv + j) =
      ∑ j ∈ Finset.range (vdes B).length, (starRingEnd ℂ) (z (nv + j)) * (genNac B nv).2 (nv + j) :=
    Finset.sum_congr rfl fun j _ => by rw [if_neg (by omega)]
  rw [a1, a3, add_zero] at h1
  rw [a2, a4, zero_add] at h2
  rw [h1, h2]
  have b1 : brSum (srcBranch acVal nv fun r => if r < nv then (starRingEnd ℂ) (z r) else 0) B 0 = 0 := by
    rw [brSum_congr _ (fun _ _ => 0)]
    · rw [brSum_map _ (fun _ => 0) _ _ (fun _ _ _ => rfl) (fun _ _ _ => rfl)]; simp
    · intro k e
      cases e <;> simp [srcBranch]
  have b2 : (B.map (srcNode acVal fun r => if r < nv then 0 else (starRingEnd ℂ) (z r))).sum = 0 := by
    refine List.sum_eq_zero fun v hv => ?_
    obtain ⟨e, hm, rfl⟩ := List.mem_map.1 hv
    have h3 := (he e hm).term_lt' hnv
    cases e <;> simp only [srcNode]
    simp only [term] at h3
    simp [h3]
  have b3 : (B.map (srcNode acVal fun r => if r < nv then (starRingEnd ℂ) (z r) else 0)).sum = (B.map (takenI z)).sum := by
    refine congrArg List.sum (List.map_congr_left fun e hm => ?_)
    have h3 := (he e hm).term_lt' hnv
    cases e <;> simp only [srcNode, takenI]
    simp only [term] at h3
    rw [if_pos h3.1, if_pos h3.2, map_sub]
    ring
  rw [drive, drive, b1, b2, b3, zero_sub, sub_zero, map_neg, sub_neg_eq_add, brSum_conj]
  congr 1
  refine brSum_congr _ _ _ _ fun k e => ?_
  cases e <;> simp [srcBranch, takenV]

/-- C140: in every solution of the AC equations the sources deliver the power which the resistors turn into heat, and
the reactive power of the capacitors and inductors. All values are twice the usual averages. `g` is a conductance
from every node to ground (zero or Gmin), `cmin` a capacitance. -/
theorem C140_power {sqrt : ℝ → Option ℝ} {nv : Nat} {circ : List (Elem ℝ)} {sys : Sys ℝ} {D : Mat ℝ} {cmin g : ℝ}
    (hnv : 0 < nv) (hb : Built sqrt circ) (he : ∀ e ∈ circ, NodesLt nv e) (hp : ∀ e ∈ circ, TwoPole e)
    (h : generate circ nv = .ok sys) (hd : generateAC circ nv sys.size cmin = .ok D)
    (ph : String → Option ℂ) (w : ℝ) {z : Vec ℂ}
    (hz : Solution nv sys.size (cast sys.M) (cast D) (genNac (circ.map (lift ph)) nv).2 (I * w) g z) :
    let given := -(((circ.map (lift ph)).map (takenI z)).sum + brSum (takenV nv z) (circ.map (lift ph)) 0)
    given.re = (circ.map (heat z)).sum + g * ∑ r ∈ Finset.range nv, normSq (z r) ∧
    given.im = w * ((circ.map (elec z)).sum + cmin * ∑ r ∈ Finset.range nv, normSq (z r) - magn circ nv z) := by
  intro given
  rw [C08_ac_same] at hd
  have hb' := balance hnv he hp (magForm_symm hb nv) h hd hz
  have he' : ∀ e ∈ circ.map (lift ph), NodesLt nv e := by
    intro e hm
    obtain ⟨e', h', rfl⟩ := List.mem_map.1 hm
    exact lift_nodes (he e' h')
  have hs := sources hnv he' z
  rw [vdes_lift] at hs
  rw [hs] at hb'
  rw [show ((circ.map (lift ph)).map (takenI z)).sum + brSum (takenV nv z) (circ.map (lift ph)) 0 = -given by
    simp [given]] at hb'
  have r1 := congrArg Complex.re hb'
  have r2 := congrArg Complex.im hb'
  simp only [Complex.add_re, Complex.add_im, Complex.mul_re, Complex.mul_im, Complex.ofReal_re, Complex.ofReal_im,
    Complex.I_re, Complex.I_im, map_mul, Complex.conj_I, Complex.conj_ofReal, Complex.neg_re, Complex.neg_im,
    Complex.zero_re, Complex.zero_im] at r1 r2
  constructor <;> linarith

/-! ### `ac_analysis` -/

theorem cast_reduce (m : Nat) (M : Mat ℝ) : (reduce m M).map Complex.ofReal = reduce m (cast M) := rfl

/-- a vector that solves the reduced equations, with the reference added, solves the equations -/
theorem solution_of {m nv : Nat} (hnv : 0 < nv) (M D : Mat ℝ) (N : Vec ℂ) (s g : ℂ) (x : Fin m → ℂ)
    (h : ∀ i : Fin m, Matrix.mulVec (reduce m (cast M)) x i + s * Matrix.mulVec (reduce m (cast D)) x i +
      (if i.val < nv - 1 then g * x i else 0) + N (i.val + 1) = 0) :
    Solution nv (m + 1) (cast M) (cast D) N s g (Rlc.ext x) := by
  refine ⟨rfl, fun r h0 hr => ?_⟩
  obtain ⟨i, rfl⟩ : ∃ i, r = i + 1 := ⟨r - 1, by omega⟩
  have hi : i < m := by omega
  have := h ⟨i, hi⟩
  rw [reduce_row, reduce_row] at this
  simp only at this
  have ex : Rlc.ext x (i + 1) = x ⟨i, hi⟩ := by simp [Rlc.ext, hi]
  rw [ex]
  by_cases hc : i < nv - 1
  · rw [if_pos hc] at this
    rw [if_pos (by omega)]
    exact this
  · rw [if_neg hc] at this
    rw [if_neg (by omega)]
    exact this

open Matrix Verif.Ac in
/-- C140 for the results of `ac_analysis`: at every frequency of the sweep the sources deliver the power turned into
heat (`given.re`) and the reactive power (`given.im`). The conductance `g` is Gmin or, if there is no solution with
it, zero. -/
theorem C140_ac_results {sqrt : ℝ → Option ℝ} {nv m : Nat} {circ : List (Elem ℝ)} {s : Sys ℝ} {D : Mat ℝ} {cmin : ℝ}
    (hnv : 0 < nv) (hb : Built sqrt circ) (he : ∀ e ∈ circ, NodesLt nv e) (hp : ∀ e ∈ circ, TwoPole e)
    (h : generate circ nv = .ok s) (hm : s.size = m + 1) (hd : generateAC circ nv s.size cmin = .ok D)
    (ph : String → Option ℂ) (gmin : ℝ) {o : AOpts} (ho : Default o) (start stop : ℝ) (h0 : start ≠ 0)
    (hs : start ≤ stop) (N : Nat) (hN : 2 ≤ N) (x0 : Fin m → ℂ) {pts : List (ℝ × (Fin m → ℂ))}
    (hr : acAnalysis o ⟨reduce m s.M, reduce m D, 0, reduceV m (genNac (circ.map (lift ph)) nv).2, nv - 1, gmin⟩
      .lin start stop N x0 = .ok (some pts)) (p : ℝ × (Fin m → ℂ)) (hpt : p ∈ pts) :
    let z := Rlc.ext p.2
    let given := -(((circ.map (lift ph)).map (takenI z)).sum + brSum (takenV nv z) (circ.map (lift ph)) 0)
    ∃ g, (g = gmin ∨ g = 0) ∧
      given.re = (circ.map (heat z)).sum + g * ∑ r ∈ Finset.range nv, normSq (z r) ∧
      given.im = 2 * Real.pi * p.1 *
        ((circ.map (elec z)).sum + cmin * ∑ r ∈ Finset.range nv, normSq (z r) - magn circ nv z) := by
  intro z given
  set c : AcIn m := ⟨reduce m s.M, reduce m D, 0, reduceV m (genNac (circ.map (lift ph)) nv).2, nv - 1, gmin⟩ with hc
  rcases C120_linear ho c start stop h0 hs N hN x0 with ⟨e, -⟩ | ⟨q, e, -, f, k⟩
  · rw [hr] at e; cases e
  rw [hr] at e
  cases e
  obtain ⟨i, hi, rfl⟩ := List.mem_iff_getElem.1 hpt
  have hi' : pts[i]? = some pts[i] := List.getElem?_eq_getElem hi
  have hw : pts[i].1 = start + i * ((stop - start) / (N - 1)) := by
    have t := congrArg (·[i]?) f
    simp only [List.getElem?_map, hi', Option.map_some] at t
    have hiN : i < N := by
      have := congrArg List.length f
      simp only [List.length_map, List.length_range] at this
      omega
    rw [List.getElem?_range hiN, Option.map_some] at t
    exact Option.some.inj t
  have kk : Solves c (2 * Real.pi * (start + i * ((stop - start) / (N - 1)))) pts[i].2 := k i _ hi'
  rw [← hw] at kk
  have sol : ∀ g : ℝ, Y c (2 * Real.pi * pts[i].1) g *ᵥ pts[i].2 + c.Nac = 0 →
      Solution nv s.size (cast s.M) (cast D) (genNac (circ.map (lift ph)) nv).2
        (Complex.I * ((2 * Real.pi * pts[i].1 : ℝ) : ℂ)) g z := by
    intro g hg
    rw [hm]
    refine solution_of hnv _ _ _ _ _ _ fun j => ?_
    have hj := congrFun hg j
    rw [Pi.add_apply, Pi.zero_apply] at hj
    refine Eq.trans ?_ hj
    congr 1
    simp only [Matrix.mulVec, dotProduct, Y, Matrix.of_apply, add_mul, Finset.sum_add_distrib, hc, Matrix.zero_apply,
      add_zero, cast, reduce]
    congr 1
    · congr 1
      rw [Finset.mul_sum]
      exact Finset.sum_congr rfl fun _ _ => by ring
    · rw [Finset.sum_eq_single j]
      · by_cases hlt : j.val < nv - 1 <;> simp [hlt]
      · intro b _ hbj
        rw [if_neg (fun hh => hbj hh.1.symm), zero_mul]
      · simp
  rcases kk with ⟨-, hg⟩ | ⟨-, -, hg⟩
  · exact ⟨gmin, .inl rfl, C140_power hnv hb he hp h hd ph _ (sol gmin hg)⟩
  · exact ⟨0, .inr rfl, C140_power hnv hb he hp h hd ph _ (sol 0 hg)⟩

/-! ### Natural frequencies -/

/-- the matrix of the circuit equations at the complex frequency `t` -/
noncomputable def at' (m : Nat) (M D : Mat ℝ) (t : ℂ) : Matrix (Fin m) (Fin m) ℂ :=
  (reduce m M).map Complex.ofReal + t • (reduce m D).map Complex.ofReal

theorem heat_nonneg (circ : List (Elem ℝ)) (hpos : ∀ e ∈ circ, Positive e) (z : Vec ℂ) :
    0 ≤ (circ.map (heat z)).sum := by
  refine sum_nonneg' _ _ fun e hm => ?_
  have := hpos e hm
  cases e <;> simp only [heat, Positive] at this ⊢ <;> try exact le_refl _
  exact div_nonneg (normSq_nonneg _) this.le

theorem elec_nonneg (circ : List (Elem ℝ)) (hpos : ∀ e ∈ circ, Positive e) (z : Vec ℂ) :
    0 ≤ (circ.map (elec z)).sum := by
  refine sum_nonneg' _ _ fun e hm => ?_
  have := hpos e hm
  cases e <;> simp only [elec, Positive] at this ⊢ <;> try exact le_refl _
  exact mul_nonneg this (normSq_nonneg _)

theorem re_ext {m : Nat} (w : Fin m → ℂ) : re (Rlc.ext w) = Rlc.ext fun i => (w i).re := by
  funext r
  cases r with
  | zero => rfl
  | succ r =>
    simp only [re, Rlc.ext]
    split <;> simp

theorem im_ext {m : Nat} (w : Fin m → ℂ) : im (Rlc.ext w) = Rlc.ext fun i => (w i).im := by
  funext r
  cases r with
  | zero => rfl
  | succ r =>
    simp only [im, Rlc.ext]
    split <;> simp

theorem map_mulVec {m : Nat} (A : Matrix (Fin m) (Fin m) ℝ) (w : Fin m → ℂ) (i : Fin m) :
    Matrix.mulVec (A.map Complex.ofReal) w i =
      ((Matrix.mulVec A (fun j => (w j).re) i : ℝ) : ℂ) + I * ((Matrix.mulVec A (fun j => (w j).im) i : ℝ) : ℂ) := by
  simp only [Matrix.mulVec, dotProduct]
  push_cast
  rw [Finset.mul_sum, ← Finset.sum_add_distrib]
  refine Finset.sum_congr rfl fun j _ => ?_
  apply Complex.ext <;> simp

/-- vectors without stored energy are in the kernel of the dynamic matrix -/
theorem no_energy {nv m : Nat} {circ : List (Elem ℝ)} {cmin : ℝ} {D : Mat ℝ} (hnv : 0 < nv)
    (he : ∀ e ∈ circ, NodesLt nv e) (hp : ∀ e ∈ circ, TwoPole e) (hpos : ∀ e ∈ circ, Positive e) (hc : 0 ≤ cmin)
    (hsym : ∀ x y, magForm circ nv x y = magForm circ nv y x) (hmag : ∀ x, 0 ≤ magForm circ nv x x)
    (hm : m + 1 = nv + (vdes circ).length) (h : generateD circ nv (m + 1) cmin = .ok D) (x : Fin m → ℝ)
    (h0 : (circ.map (capForm (Rlc.ext x) (Rlc.ext x))).sum +
      cmin * ∑ r ∈ Finset.range nv, Rlc.ext x r * Rlc.ext x r + magForm circ nv (Rlc.ext x) (Rlc.ext x) = 0) :
    Matrix.mulVec (reduce m D) x = 0 := by
  have bil : ∀ x y : Fin m → ℝ, dotProduct x (Matrix.mulVec (signs m nv * reduce m D) y) =
      (circ.map (capForm (Rlc.ext x) (Rlc.ext y))).sum + cmin * ∑ r ∈ Finset.range nv, Rlc.ext x r * Rlc.ext y r +
        magForm circ nv (Rlc.ext x) (Rlc.ext y) := by
    intro x y
    rw [form hm]
    rw [hm] at h ⊢
    rw [dynamic_node hnv he h _ _ rfl rfl, dynamic_branch hnv he hp h _ _ rfl, sub_neg_eq_add]
  have symm : (signs m nv * reduce m D).transpose = signs m nv * reduce m D := by
    ext i j
    have : dotProduct (Pi.single j 1) (Matrix.mulVec (signs m nv * reduce m D) (Pi.single i 1)) =
        dotProduct (Pi.single i 1) (Matrix.mulVec (signs m nv * reduce m D) (Pi.single j 1)) := by
      rw [bil, bil, hsym, show capForm (Rlc.ext (Pi.single j (1 : ℝ))) (Rlc.ext (Pi.single i 1)) =
        capForm (Rlc.ext (Pi.single i 1)) (Rlc.ext (Pi.single j 1)) from funext (capForm_symm _ _)]
      simp only [mul_comm]
    simpa using this
  have psd : ∀ x, 0 ≤ dotProduct x (Matrix.mulVec (signs m nv * reduce m D) x) := by
    intro x
    rw [bil]
    refine add_nonneg (add_nonneg (sum_nonneg' _ _ fun e hm => ?_)
      (mul_nonneg hc (Finset.sum_nonneg fun r _ => mul_self_nonneg _))) (hmag _)
    have := hpos e hm
    cases e <;> simp only [capForm, Positive] at this ⊢ <;> try exact le_refl _
    rw [mul_assoc]
    exact mul_nonneg this (mul_self_nonneg _)
  have key := Tran.psd_zero symm psd (v := x) (by rw [bil]; exact h0)
  rw [← Matrix.mulVec_mulVec] at key
  funext i
  have := congrFun key i
  rw [signs, Matrix.mulVec_diagonal, Pi.zero_apply] at this
  rcases mul_eq_zero.1 this with h1 | h1
  · exfalso
    unfold sgn at h1
    split at h1 <;> norm_num at h1
  · exact h1

/-- at a natural frequency there is an oscillation with stored energy, whose power is balanced -/
theorem oscillation {nv m : Nat}
    {circ : List (Elem ℝ)} {s : Sys ℝ} {D : Mat ℝ} {cmin : ℝ}
    (hnv : 0 < nv) (he : ∀ e ∈ circ, NodesLt nv e) (hp : ∀ e ∈ circ, TwoPole e)
    (hpos : ∀ e ∈ circ, Positive e) (hc : 0 ≤ cmin)
    (hsym : ∀ x y, magForm circ nv x y = magForm circ nv y x) (hmag : ∀ x, 0 ≤ magForm circ nv x x)
    (h : generate circ nv = .ok s) (hm : s.size = m + 1) (hd : generateD circ nv s.size cmin = .ok D)
    {t0 : ℂ} (hreg : (at' m s.M D t0).det ≠ 0) {t : ℂ} (ht : (at' m s.M D t).det = 0) :
    ∃ z : Vec ℂ, 0 ≤ (circ.map (heat z)).sum ∧ 0 ≤ (circ.map (elec z)).sum + cmin * ∑ r ∈ Finset.range nv, normSq (z r) ∧
      0 ≤ magn circ nv z ∧
      0 < (circ.map (elec z)).sum + cmin * ∑ r ∈ Finset.range nv, normSq (z r) + magn circ nv z ∧
      (circ.map (heat z)).sum +
        t.re * ((circ.map (elec z)).sum + cmin * ∑ r ∈ Finset.range nv, normSq (z r) + magn circ nv z) = 0 ∧
      t.im * ((circ.map (elec z)).sum + cmin * ∑ r ∈ Finset.range nv, normSq (z r) - magn circ nv z) = 0 := by
  obtain ⟨w, hw0, hw⟩ := Matrix.exists_mulVec_eq_zero_iff.mpr ht
  have hS := (rows_linear he hp h fun _ => 0).1
  have sol : Solution nv s.size (cast s.M) (cast D) (fun _ => 0) t ((0 : ℝ) : ℂ) (Rlc.ext w) := by
    rw [hm]
    refine solution_of hnv _ _ _ _ _ _ fun i => ?_
    have hi := congrFun hw i
    rw [at', Matrix.add_mulVec, Matrix.smul_mulVec, Pi.add_apply, Pi.smul_apply, Pi.zero_apply, smul_eq_mul,
      cast_reduce, cast_reduce] at hi
    simp [hi]
  have key := balance hnv he hp hsym h hd sol
  simp only [mul_zero, Finset.sum_const_zero, map_zero, sub_zero, add_zero, zero_mul] at key
  have hn : 0 ≤ cmin * ∑ r ∈ Finset.range nv, normSq (Rlc.ext w r) :=
    mul_nonneg hc (Finset.sum_nonneg fun r _ => normSq_nonneg _)
  have hE := add_nonneg (elec_nonneg circ hpos (Rlc.ext w)) hn
  have hM : 0 ≤ magn circ nv (Rlc.ext w) := add_nonneg (hmag _) (hmag _)
  refine ⟨Rlc.ext w, heat_nonneg circ hpos _, hE, hM, ?_, ?_, ?_⟩
  · refine lt_of_le_of_ne (add_nonneg hE hM) fun hz => ?_
    have hz : _ = (0 : ℝ) := hz.symm
    rw [← elec_eq, ← size_eq, magn, re_ext, im_ext] at hz
    have q1 : ∀ x : Fin m → ℝ, 0 ≤ (circ.map (capForm (Rlc.ext x) (Rlc.ext x))).sum +
        cmin * ∑ r ∈ Finset.range nv, Rlc.ext x r * Rlc.ext x r + magForm circ nv (Rlc.ext x) (Rlc.ext x) := by
      intro x
      refine add_nonneg (add_nonneg (sum_nonneg' _ _ fun e hm => ?_)
        (mul_nonneg hc (Finset.sum_nonneg fun r _ => mul_self_nonneg _))) (hmag _)
      have := hpos e hm
      cases e <;> simp only [capForm, Positive] at this ⊢ <;> try exact le_refl _
      rw [mul_assoc]
      exact mul_nonneg this (mul_self_nonneg _)
    have qr := q1 fun i => (w i).re
    have qi := q1 fun i => (w i).im
    have kr := no_energy hnv he hp hpos hc hsym hmag (by omega) (hm ▸ hd) (fun i => (w i).re) (by linarith)
    have ki := no_energy hnv he hp hpos hc hsym hmag (by omega) (hm ▸ hd) (fun i => (w i).im) (by linarith)
    have hDw : Matrix.mulVec ((reduce m D).map Complex.ofReal) w = 0 := by
      funext i
      rw [map_mulVec, kr, ki]
      simp
    apply hreg
    refine Matrix.exists_mulVec_eq_zero_iff.mp ⟨w, hw0, ?_⟩
    rw [at', Matrix.add_mulVec, Matrix.smul_mulVec, hDw] at hw ⊢
    simpa using hw
  · have := congrArg Complex.re key
    simp at this
    linarith
  · have := congrArg Complex.im key
    simp at this
    linarith

theorem left {nv m : Nat} {circ : List (Elem ℝ)} {s : Sys ℝ} {D : Mat ℝ} {cmin : ℝ}
    (hnv : 0 < nv) (he : ∀ e ∈ circ, NodesLt nv e) (hp : ∀ e ∈ circ, TwoPole e)
    (hpos : ∀ e ∈ circ, Positive e) (hc : 0 ≤ cmin)
    (hsym : ∀ x y, magForm circ nv x y = magForm circ nv y x) (hmag : ∀ x, 0 ≤ magForm circ nv x x)
    (h : generate circ nv = .ok s) (hm : s.size = m + 1) (hd : generateD circ nv s.size cmin = .ok D)
    {t0 : ℂ} (hreg : (at' m s.M D t0).det ≠ 0) {t : ℂ} (ht : (at' m s.M D t).det = 0) : t.re ≤ 0 := by
  obtain ⟨z, h1, -, -, h4, h5, -⟩ := oscillation hnv he hp hpos hc hsym hmag h hm hd hreg ht
  by_contra hcon
  have := mul_pos (not_le.1 hcon) h4
  linarith

/-- C141: a circuit of resistors, capacitors, inductors, couplings and independent sources (values not negative,
resistances positive, coupling factors of every inductor at most one in total) has no natural frequency in the right
half-plane, unless every frequency is one. -/
theorem C141_left_half_plane {sqrt : ℝ → Option ℝ} (hsq : ∀ v q, sqrt v = some q → q * q = v) {nv m : Nat}
    {circ : List (Elem ℝ)} {s : Sys ℝ} {D : Mat ℝ} {cmin : ℝ}
    (hnv : 0 < nv) (hb : Built sqrt circ) (he : ∀ e ∈ circ, NodesLt nv e) (hp : ∀ e ∈ circ, TwoPole e)
    (hpos : ∀ e ∈ circ, Positive e) (hlo : ∀ e ∈ circ, Loose e) (hc : 0 ≤ cmin)
    (h : generate circ nv = .ok s) (hm : s.size = m + 1) (hd : generateD circ nv s.size cmin = .ok D)
    {t : ℂ} (ht : (at' m s.M D t).det = 0) : t.re ≤ 0 ∨ ∀ t', (at' m s.M D t').det = 0 := by
  by_cases hreg : ∃ t0, (at' m s.M D t0).det ≠ 0
  · obtain ⟨t0, h0⟩ := hreg
    exact .inl (left hnv he hp hpos hc (magForm_symm hb nv) (C09_magnetic_energy hsq hb hpos hlo nv) h hm hd h0 ht)
  · exact .inr fun t' => by_contra fun h' => hreg ⟨t', h'⟩

/-- no inductor / no capacitor / no resistor -/
def NoL : Elem ℝ → Prop
  | .L .. => False
  | _ => True
def NoC : Elem ℝ → Prop
  | .C .. => False
  | _ => True
def NoR : Elem ℝ → Prop
  | .R .. => False
  | _ => True

theorem brSum_zero (f : Nat → Elem ℝ → ℝ) (l : List (Elem ℝ)) (k : Nat) (h : ∀ e ∈ l, ∀ k, f k e = 0) :
    brSum f l k = 0 := by
  induction l generalizing k with
  | nil => rfl
  | cons e t ih =>
    rw [brSum, ih _ fun e' h' => h e' (List.mem_cons_of_mem _ h'), h e (List.mem_cons_self ..)]
    simp

theorem magn_noL {circ : List (Elem ℝ)} (hl : ∀ e ∈ circ, NoL e) (nv : Nat) (x y : Vec ℝ) :
    magForm circ nv x y = 0 := by
  unfold magForm
  rw [brSum_zero, brSum_zero, add_zero] <;> intro e hm k <;> have := hl e hm <;> cases e <;>
    simp_all [NoL, indForm, mutForm]

theorem elec_noC {circ : List (Elem ℝ)} (hl : ∀ e ∈ circ, NoC e) (z : Vec ℂ) : (circ.map (elec z)).sum = 0 := by
  refine List.sum_eq_zero fun v hv => ?_
  obtain ⟨e, hm, rfl⟩ := List.mem_map.1 hv
  have := hl e hm
  cases e <;> simp_all [NoC, elec]

theorem heat_noR {circ : List (Elem ℝ)} (hl : ∀ e ∈ circ, NoR e) (z : Vec ℂ) : (circ.map (heat z)).sum = 0 := by
  refine List.sum_eq_zero fun v hv => ?_
  obtain ⟨e, hm, rfl⟩ := List.mem_map.1 hv
  have := hl e hm
  cases e <;> simp_all [NoR, heat]

/-- C141: without inductors every natural frequency is real and not positive: RC circuits do not oscillate. -/
theorem C141_rc_real {nv m : Nat} {circ : List (Elem ℝ)} {s : Sys ℝ} {D : Mat ℝ} {cmin : ℝ}
    (hnv : 0 < nv) (he : ∀ e ∈ circ, NodesLt nv e) (hp : ∀ e ∈ circ, TwoPole e)
    (hpos : ∀ e ∈ circ, Positive e) (hl : ∀ e ∈ circ, NoL e) (hc : 0 ≤ cmin)
    (h : generate circ nv = .ok s) (hm : s.size = m + 1) (hd : generateD circ nv s.size cmin = .ok D)
    {t0 : ℂ} (hreg : (at' m s.M D t0).det ≠ 0) {t : ℂ} (ht : (at' m s.M D t).det = 0) : t.im = 0 ∧ t.re ≤ 0 := by
  have hsym : ∀ x y, magForm circ nv x y = magForm circ nv y x := fun x y => by rw [magn_noL hl, magn_noL hl]
  have hmag : ∀ x, 0 ≤ magForm circ nv x x := fun x => by rw [magn_noL hl]
  refine ⟨?_, left hnv he hp hpos hc hsym hmag h hm hd hreg ht⟩
  obtain ⟨z, -, -, -, h4, -, h6⟩ := oscillation hnv he hp hpos hc hsym hmag h hm hd hreg ht
  have h0 : magn circ nv z = 0 := by rw [magn, magn_noL hl, magn_noL hl, add_zero]
  rw [h0] at h4 h6
  exact (mul_eq_zero.1 h6).resolve_right (by linarith)

/-- C141: the same without capacitors, for RL circuits with couplings. -/
theorem C141_rl_real {sqrt : ℝ → Option ℝ} (hsq : ∀ v q, sqrt v = some q → q * q = v) {nv m : Nat}
    {circ : List (Elem ℝ)} {s : Sys ℝ} {D : Mat ℝ}
    (hnv : 0 < nv) (hb : Built sqrt circ) (he : ∀ e ∈ circ, NodesLt nv e) (hp : ∀ e ∈ circ, TwoPole e)
    (hpos : ∀ e ∈ circ, Positive e) (hlo : ∀ e ∈ circ, Loose e) (hl : ∀ e ∈ circ, NoC e)
    (h : generate circ nv = .ok s) (hm : s.size = m + 1) (hd : generateD circ nv s.size 0 = .ok D)
    {t0 : ℂ} (hreg : (at' m s.M D t0).det ≠ 0) {t : ℂ} (ht : (at' m s.M D t).det = 0) : t.im = 0 ∧ t.re ≤ 0 := by
  have hsym := magForm_symm hb nv
  have hmag := C09_magnetic_energy hsq hb hpos hlo nv
  refine ⟨?_, left hnv he hp hpos le_rfl hsym hmag h hm hd hreg ht⟩
  obtain ⟨z, -, -, -, h4, -, h6⟩ := oscillation hnv he hp hpos le_rfl hsym hmag h hm hd hreg ht
  rw [elec_noC hl, zero_mul, add_zero] at h4 h6
  exact (mul_eq_zero.1 h6).resolve_right (by linarith)

/-- C141: without resistors the natural frequencies are on the imaginary axis: LC circuits oscillate undamped. -/
theorem C141_lc_imaginary {sqrt : ℝ → Option ℝ} (hsq : ∀ v q, sqrt v = some q → q * q = v) {nv m : Nat}
    {circ : List (Elem ℝ)} {s : Sys ℝ} {D : Mat ℝ} {cmin : ℝ}
    (hnv : 0 < nv) (hb : Built sqrt circ) (he : ∀ e ∈ circ, NodesLt nv e) (hp : ∀ e ∈ circ, TwoPole e)
    (hpos : ∀ e ∈ circ, Positive e) (hlo : ∀ e ∈ circ, Loose e) (hl : ∀ e ∈ circ, NoR e) (hc : 0 ≤ cmin)
    (h : generate circ nv = .ok s) (hm : s.size = m + 1) (hd : generateD circ nv s.size cmin = .ok D)
    {t0 : ℂ} (hreg : (at' m s.M D t0).det ≠ 0) {t : ℂ} (ht : (at' m s.M D t).det = 0) : t.re = 0 := by
  obtain ⟨z, -, -, -, h4, h5, -⟩ := oscillation hnv he hp hpos hc (magForm_symm hb nv)
    (C09_magnetic_energy hsq hb hpos hlo nv) h hm hd hreg ht
  rw [heat_noR hl, zero_add] at h5
  exact (mul_eq_zero.1 h5).resolve_right (by linarith)

/-! ### Poles reported by `.pz` -/

section Poles
open Polynomial Verif.Pz

theorem det_map {m : Nat} (M D : Mat ℝ) (t : ℂ) :
    (circuitPoly m M D).eval₂ Complex.ofRealHom t = (at' m M D t).det := by
  have := RingHom.map_det (Polynomial.eval₂RingHom Complex.ofRealHom t) ((red m M).map C + (X : ℝ[X]) • (red m D).map C)
  rw [← Polynomial.coe_eval₂RingHom, circuitPoly, this]
  congr 1
  ext i j
  simp [at', red, reduce]
  ring

theorem rev_map {k : Type} [Fintype k] [DecidableEq k] (T : Matrix k k ℝ) (t : ℂ) :
    T.charpolyRev.eval₂ Complex.ofRealHom t = (1 - t • T.map Complex.ofReal).det := by
  have := RingHom.map_det (Polynomial.eval₂RingHom Complex.ofRealHom t) (1 - (X : ℝ[X]) • T.map C)
  rw [← Polynomial.coe_eval₂RingHom, Matrix.charpolyRev, this]
  congr 1
  ext i j
  by_cases h : i = j <;> simp [h] <;> ring

/-- C142: the poles which `.pz` reports for circuits without mutual inductances, `1/λ + shift` with the complex
eigenvalues `λ` of the time-constant matrix, are natural frequencies, so they are not in the right half-plane. -/
theorem C142_poles_partial {nv m : Nat} {circ : List (Elem ℝ)} {s : Sys ℝ} {D : Mat ℝ}
    {W : Matrix (Fin m) (Fin m) ℝ} (shift : ℝ) (hnv : 0 < nv) (he : ∀ e ∈ circ, NodesLt nv e)
    (hp : ∀ e ∈ circ, TwoPole e) (hpos : ∀ e ∈ circ, Positive e) (hnc : ∀ e ∈ circ, NoCoup e)
    (h : generate circ nv = .ok s) (hm : s.size = m + 1) (hd : generateD circ nv s.size 0 = .ok D)
    (hW : (red m s.M + shift • red m D) * W = 1) (lam : ℂ) (hlam : lam ≠ 0)
    (hroot : ((tcm W nv (reactive circ 0)).map Complex.ofReal).charpoly.IsRoot lam) :
    (at' m s.M D (1 / lam + shift)).det = 0 ∧ (1 / lam + shift).re ≤ 0 := by
  have hS := (rows_linear he hp h fun _ => 0).1
  have hreg : (at' m s.M D shift).det ≠ 0 := by
    have e : at' m s.M D shift = Complex.ofRealHom.mapMatrix (red m s.M + shift • red m D) := by
      ext i j
      simp [at', red, reduce]
    rw [e, ← RingHom.map_det]
    intro h0
    have := congrArg Matrix.det hW
    rw [Matrix.det_mul, Complex.ofReal_eq_zero.1 h0, zero_mul, Matrix.det_one] at this
    exact zero_ne_one this
  have hdet : (at' m s.M D (1 / lam + shift)).det = 0 := by
    have e : (circuitPoly m s.M D).comp (X + C shift) =
        C (red m s.M + shift • red m D).det * (tcm W nv (reactive circ 0)).charpolyRev := by
      refine Polynomial.funext (fun σ => ?_)
      rw [Polynomial.eval_comp, Polynomial.eval_mul, Polynomial.eval_C, eval_charpolyRev',
        ← C62_det s.M shift σ hnv he hnc (by omega) hd hW]
      have e2 : ((X : ℝ[X]) + C shift).eval σ = shift + σ := by simp [add_comm]
      rw [e2, eval_circuitPoly]
      rfl
    have e3 := congrArg (Polynomial.eval₂ Complex.ofRealHom (1 / lam)) e
    rw [Polynomial.eval₂_comp, Polynomial.eval₂_mul, rev_map, (isRoot_iff _ hlam).1 hroot, mul_zero] at e3
    rw [← det_map, ← e3]
    simp
  refine ⟨hdet, ?_⟩
  have hun : ∀ e ∈ circ, Uncoupled e := fun e hm => by
    have := hnc e hm
    cases e <;> simp_all [NoCoup, Uncoupled]
  refine left hnv he hp hpos le_rfl (fun x y => ?_) (fun x => ?_) h hm hd hreg hdet
  · rw [magForm_uncoupled hun, magForm_uncoupled hun]
    exact brSum_congr _ _ _ _ (indForm_symm nv x y)
  · rw [magForm_uncoupled hun]
    refine brSum_nonneg _ _ _ fun e hm k => ?_
    have := hpos e hm
    cases e <;> simp only [indForm, Positive] at this ⊢ <;> try exact le_refl _
    rw [mul_assoc]
    exact mul_nonneg this (mul_self_nonneg _)

/-- the inverse of the matrix of `mutualDemo` at the shift 4 -/
def shiftedInv : Matrix (Fin 4) (Fin 4) ℚ :=
  !![16/21, 2/21, 5/21, -2/21; 2/21, 16/21, -2/21, 5/21; 5/21, -2/21, -5/21, 2/21; -2/21, 5/21, 2/21, -5/21]

/-- C142 refuted for mutual inductances: with the shift 4 the pole `1` is reported for two coupled inductors with
resistors, although the circuit is passive and its natural frequencies are `-2` and `-2/3`. -/
theorem C142_mutual_inductance_refuted :
    (∀ e ∈ mutualDemo, NodesLt 3 e) ∧ (∀ e ∈ mutualDemo, TwoPole e) ∧ (∀ e ∈ mutualDemo, Positive e) ∧
    (∀ e ∈ mutualDemo, Loose e) ∧
    (red 4 (matOf mutualDemo 3) + (4 : ℚ) • red 4 (dynOf mutualDemo 3 5)) * shiftedInv = 1 ∧
    ∃ lam, lam ≠ 0 ∧ (tcm shiftedInv 3 (reactive mutualDemo 0)).charpoly.IsRoot lam ∧ 0 < 1 / lam + 4 := by
  refine ⟨?_, ?_, ?_, ?_, by decide +kernel, -1 / 3, by norm_num, ?_, by norm_num⟩
  · simp [mutualDemo, NodesLt]
  · simp [mutualDemo, TwoPole]
  · simp [mutualDemo, Positive]
  · simp [mutualDemo, Loose]; norm_num
  · rw [Polynomial.IsRoot, Matrix.eval_charpoly]
    decide +kernel

end Poles

/-! ### Examples -/

/-- a parallel resonant circuit driven by a current source; `s^2 + 2*s + 2 = 0` -/
noncomputable def tank : List (Elem ℝ) :=
  [.R "R1" 1 0 1, .C "C1" 1 0 (1 / 2) none, .L "L1" 1 0 1 none [], .I "I1" 1 0 { dc := some 0 }]

example : (∀ e ∈ tank, NodesLt 2 e) ∧ (∀ e ∈ tank, TwoPole e) ∧ (∀ e ∈ tank, Positive e) ∧ (∀ e ∈ tank, Loose e) ∧
    (∀ e ∈ tank, Verif.Pz.NoCoup e) := by
  simp [tank, NodesLt, TwoPole, Positive, Loose, Verif.Pz.NoCoup]

example : ∃ s D, generate tank 2 = .ok s ∧ s.size = 3 ∧ generateD tank 2 3 0 = .ok D ∧
    (at' 2 s.M D 0).det ≠ 0 ∧ (at' 2 s.M D (-1 + I)).det = 0 := by
  refine ⟨_, _, rfl, rfl, rfl, ?_, ?_⟩
  · rw [Matrix.det_fin_two]
    simp [at', reduce, Mat.add, Mat.put, Elem.vde]
  · rw [Matrix.det_fin_two]
    simp [at', reduce, Mat.add, Mat.put, Elem.vde]
    apply Complex.ext <;> norm_num

/-- driven with 1 A at the angular frequency 1: power and reactive power -/
example : ∃ s D, generate tank 2 = .ok s ∧ generateAC tank 2 3 0 = .ok D ∧
    let z : Vec ℂ := fun r => [0, -4 / 5 - 2 / 5 * I, -2 / 5 + 4 / 5 * I].getD r 0
    Solution 2 3 (cast s.M) (cast D) (genNac (tank.map (lift fun _ => some 1)) 2).2 (I * (1 : ℝ)) (0 : ℝ) z ∧
      (tank.map (heat z)).sum = 4 / 5 ∧ (tank.map (elec z)).sum - magn tank 2 z = -2 / 5 := by
  refine ⟨_, _, rfl, rfl, ⟨rfl, fun r h0 h3 => ?_⟩, ?_, ?_⟩
  · have : r = 1 ∨ r = 2 := by omega
    rcases this with rfl | rfl
    · simp [mulVec, cast, Finset.sum_range_succ, Mat.add, Mat.put, genNac, tank, lift, nac1, nac2, Elem.vde, Vec.add, Vec.put]
      apply Complex.ext <;> norm_num
    · simp [mulVec, cast, Finset.sum_range_succ, Mat.add, Mat.put, genNac, tank, lift, nac1, nac2, Elem.vde, Vec.add, Vec.put]
      apply Complex.ext <;> norm_num
  · simp [tank, heat, normSq_apply]; norm_num
  · simp [tank, elec, normSq_apply, magn, magForm, brSum, indForm, mutForm, mutualTerm, Elem.vde, re, im]; norm_num

end Verif.Stable
