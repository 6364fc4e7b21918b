import Verif.Props.Devices
import Verif.Props.MnaSrc
import Verif.Props.Ac
import Mathlib.Analysis.Calculus.Deriv.Add
import Mathlib.Analysis.Calculus.Deriv.Mul
import Mathlib.Analysis.Calculus.Deriv.Comp
import Mathlib.Analysis.Calculus.Deriv.Prod
import Mathlib.Analysis.SpecialFunctions.Log.Deriv
import Mathlib.Topology.Instances.Matrix

/-!
C149: AC analysis is the linearisation of operating points.
-/

namespace Verif.Signal
open Verif.Circuit Verif.Mna Verif.Devices

/-! ### Changing the sources -/

section Bump
variable {α : Type} [Field α]

/-- the source with its DC value changed by `u` times its AC value -/
def bumpS (u : α) (s : Src α) : Src α := { s with dc := some (s.dc.getD 0 + u * s.ac.getD 0) }

/-- all sources changed -/
def bump (u : α) : Elem α → Elem α
  | .V id n1 n2 s => .V id n1 n2 (bumpS u s)
  | .I id n1 n2 s => .I id n1 n2 (bumpS u s)
  | e => e

/-- independent sources have fixed values -/
def Static : Elem α → Prop
  | .V _ _ _ s | .I _ _ _ s => s.timeDep = false
  | _ => True

theorem bump_id (u : α) (e : Elem α) : (bump u e).id = e.id := by cases e <;> rfl

theorem bump_vde (u : α) (e : Elem α) : (bump u e).vde = e.vde := by cases e <;> rfl

theorem bump_lt {nv : Nat} (u : α) {e : Elem α} (h : NodesLt nv e) : NodesLt nv (bump u e) := by
  cases e <;> simpa [NodesLt, bump] using h

theorem bump_proper (u : α) {e : Elem α} (h : Proper e) : Proper (bump u e) := by
  cases e <;> simpa [Proper, bump] using h

theorem vdes_bump (u : α) (circ : List (Elem α)) : vdes (circ.map (bump u)) = (vdes circ).map (bump u) := by
  unfold vdes
  rw [List.filter_map]
  congr 1
  refine List.filter_congr fun e _ => ?_
  simp [bump_vde]

theorem branchOf_bump (u : α) (circ : List (Elem α)) (src : String) :
    branchOf (circ.map (bump u)) src = branchOf circ src := by
  unfold branchOf
  rw [vdes_bump, List.findIdx_map]
  congr 1
  funext e
  simp [bump_id]

/-- what the branch equations get, `z` being the first row -/
def brPart : List (Elem α) → Nat → Nat → α
  | [], _, _ => 0
  | e :: t, z, r => (if e.vde ∧ r = z then acBranch e else 0) + brPart t (z + if e.vde then 1 else 0) r

theorem c1_bump (u : α) (x : Vec α) {e : Elem α} (hs : Static e) (r : Nat) :
    c1 x (bump u e) r = c1 x e r + u * acNode [e] r := by
  cases e <;> simp only [bump, c1, acNode, List.map_cons, List.map_nil, List.sum_cons, List.sum_nil, add_zero, mul_zero]
  rename_i s
  simp only [Static] at hs
  simp only [bumpS, hs, Bool.false_eq_true, if_false, Option.getD_some, inj]
  split_ifs <;> ring

theorem c2_bump (u : α) (circ : List (Elem α)) (nv : Nat) (x : Vec α) (z : Nat) {e : Elem α} (hs : Static e) (r : Nat) :
    c2 (circ.map (bump u)) nv x z (bump u e) r = c2 circ nv x z e r + u * (if e.vde ∧ r = z then acBranch e else 0) := by
  have ht : term (bump u e) = term e := by cases e <;> rfl
  have hl : lawCoded (circ.map (bump u)) nv x (bump u e) = lawCoded circ nv x e + u * acBranch e := by
    cases e <;> simp only [bump, lawCoded, acBranch, mul_zero, add_zero, branchOf_bump]
    rename_i s
    simp only [Static] at hs
    simp only [bumpS, hs, Bool.false_eq_true, if_false, Option.getD_some]
    ring
  unfold c2
  rw [bump_vde, ht, hl]
  by_cases hv : e.vde = true <;> by_cases hr : r = z <;> simp [hv, hr] <;> ring

theorem c2sum_bump (u : α) (circ : List (Elem α)) (nv : Nat) (x : Vec α) (r : Nat) (l : List (Elem α))
    (hs : ∀ e ∈ l, Static e) (z : Nat) :
    c2sum (circ.map (bump u)) nv x (l.map (bump u)) z r = c2sum circ nv x l z r + u * brPart l z r := by
  induction l generalizing z with
  | nil => simp [c2sum, brPart]
  | cons e t ih =>
    simp only [List.map_cons, c2sum, brPart, bump_vde]
    rw [ih (fun e he => hs e (List.mem_cons_of_mem _ he)), c2_bump u circ nv x z (hs e (List.mem_cons_self ..))]
    ring

theorem brPart_low (l : List (Elem α)) (z r : Nat) (h : r < z) : brPart l z r = 0 := by
  induction l generalizing z with
  | nil => rfl
  | cons e t ih =>
    rw [brPart, if_neg (by omega), ih _ (by omega), add_zero]

theorem brPart_high (l : List (Elem α)) (z k : Nat) (e : Elem α) (h : (vdes l)[k]? = some e) :
    brPart l z (z + k) = acBranch e := by
  induction l generalizing z k with
  | nil => simp [vdes_nil] at h
  | cons a t ih =>
    rw [vdes_cons] at h
    rw [brPart]
    by_cases hv : a.vde = true
    · rw [if_pos hv] at h
      cases k with
      | zero =>
        simp only [List.getElem?_cons_zero, Option.some.injEq] at h
        subst h
        rw [if_pos ⟨hv, rfl⟩, brPart_low _ _ _ (by simp [hv]), add_zero]
      | succ k =>
        rw [if_neg (by omega), zero_add, if_pos hv]
        have := ih (z + 1) k (by simpa using h)
        rw [← this]
        congr 1
        omega
    · rw [if_neg hv] at h
      rw [if_neg (by simp [hv]), zero_add, if_neg hv]
      exact ih _ _ h

theorem acNode_cons (e : Elem α) (t : List (Elem α)) (r : Nat) : acNode (e :: t) r = acNode [e] r + acNode t r := by
  simp [acNode]

theorem acNode_high {nv : Nat} {circ : List (Elem α)} (he : ∀ e ∈ circ, NodesLt nv e) {r : Nat} (hr : nv ≤ r) :
    acNode circ r = 0 := by
  unfold acNode
  refine List.sum_eq_zero fun v hv => ?_
  obtain ⟨e, hin, rfl⟩ := List.mem_map.1 hv
  have := he e hin
  cases e <;> simp only [NodesLt] at this ⊢
  simp only [inj]
  rw [if_neg (by omega), if_neg (by omega), sub_zero]

/-- the vector of AC sources row by row -/
theorem nac_rows {nv : Nat} {circ : List (Elem α)} (he : ∀ e ∈ circ, NodesLt nv e) {r : Nat}
    (hr : r < nv + (vdes circ).length) : (genNac circ nv).2 r = acNode circ r + brPart circ nv r := by
  obtain ⟨-, h1, h2⟩ := C10_ac_excitation circ nv he
  by_cases h : r < nv
  · rw [h1 r h, brPart_low _ _ _ h, add_zero]
  · obtain ⟨k, rfl⟩ : ∃ k, r = nv + k := ⟨r - nv, by omega⟩
    have hk : k < (vdes circ).length := by omega
    have hk' := List.getElem?_eq_getElem hk
    rw [h2 k _ hk', acNode_high he (by omega), zero_add, brPart_high circ nv k _ hk']

/-- The equations of the changed circuit: the same matrix, and the constant terms changed by `u` times the vector that AC
analysis uses. -/
theorem bump_rows {nv : Nat} {circ : List (Elem α)} {s s' : Sys α} (u : α) (he : ∀ e ∈ circ, NodesLt nv e)
    (hp : ∀ e ∈ circ, Proper e) (hs : ∀ e ∈ circ, Static e) (h : generate circ nv = .ok s)
    (h' : generate (circ.map (bump u)) nv = .ok s') :
    s'.size = s.size ∧ ∀ r < s.size, (∀ x, mulVec s.size s'.M x r = mulVec s.size s.M x r) ∧
      s'.N r = s.N r + u * (genNac circ nv).2 r := by
  have he' : ∀ e ∈ circ.map (bump u), NodesLt nv e := fun e hm => by
    obtain ⟨e, hin, rfl⟩ := List.mem_map.1 hm; exact bump_lt u (he e hin)
  have hp' : ∀ e ∈ circ.map (bump u), Proper e := fun e hm => by
    obtain ⟨e, hin, rfl⟩ := List.mem_map.1 hm; exact bump_proper u (hp e hin)
  have hz : s'.size = s.size := by
    rw [(generate_row (fun _ => 0) he hp h).1, (generate_row (fun _ => 0) he' hp' h').1, vdes_bump, List.length_map]
  have hsz := (generate_row (fun _ => 0) he hp h).1
  have all : ∀ x r, r < s.size → mulVec s.size s'.M x r + s'.N r =
      mulVec s.size s.M x r + s.N r + u * (genNac circ nv).2 r := by
    intro x r hr
    have h1 := (generate_row x he hp h).2 r
    have h2 := (generate_row x he' hp' h').2 r
    rw [hz] at h2
    rw [h1, h2, nac_rows he (by omega), c2sum_bump u circ nv x r circ hs nv]
    have e1 : ∀ l : List (Elem α), (∀ e ∈ l, Static e) →
        ((l.map (bump u)).map fun e => c1 x e r).sum = (l.map fun e => c1 x e r).sum + u * acNode l r := by
      intro l
      induction l with
      | nil => intro _; simp [acNode]
      | cons e t ih =>
        intro hl
        simp only [List.map_cons, List.sum_cons] at ih ⊢
        rw [ih fun e he => hl e (List.mem_cons_of_mem _ he), c1_bump u x (hl e (List.mem_cons_self ..)), acNode_cons e t]
        ring
    have e3 : ((circ.map (bump u)).map fun e => c3 (circ.map (bump u)) nv x e r).sum =
        (circ.map fun e => c3 circ nv x e r).sum := by
      rw [List.map_map]
      congr 1
      refine List.map_congr_left fun e _ => ?_
      cases e <;> simp only [Function.comp, bump, c3, branchOf_bump]
    rw [e1 circ hs, e3]
    ring
  refine ⟨hz, fun r hr => ?_⟩
  have hN : s'.N r = s.N r + u * (genNac circ nv).2 r := by
    have := all (fun _ => 0) r hr
    simpa [mulVec] using this
  refine ⟨fun x => ?_, hN⟩
  have := all x r hr
  rw [hN] at this
  linear_combination this

end Bump

/-! ### The derivative -/

open Filter Topology

theorem devSum_bump (u : ℝ) (f : String → Nat → Nat → ℝ) (circ : List (Elem ℝ)) :
    devSum f (circ.map (bump u)) = devSum f circ := by
  unfold devSum
  rw [List.map_map]
  congr 1
  refine List.map_congr_left fun e _ => ?_
  cases e <;> rfl

theorem apart_bump (u : ℝ) {e : Elem ℝ} (h : Apart e) : Apart (bump u e) := by
  cases e <;> simpa [Apart, bump] using h

theorem ext_deriv {m : Nat} {x : ℝ → Fin m → ℝ} {x' : Fin m → ℝ} {t : ℝ} (h : HasDerivAt x x' t) (r : Nat) :
    HasDerivAt (fun u => Rlc.ext (x u) r) (Rlc.ext x' r) t := by
  cases r with
  | zero => exact hasDerivAt_const t 0
  | succ k =>
    by_cases hk : k < m
    · simp only [Rlc.ext, hk, dif_pos]
      exact (hasDerivAt_pi.1 h) ⟨k, hk⟩
    · simp only [Rlc.ext, hk, dif_neg, not_false_eq_true]
      exact hasDerivAt_const t 0

theorem devSum_deriv {t : ℝ} (f : ℝ → String → Nat → Nat → ℝ) (f' : String → Nat → Nat → ℝ) (circ : List (Elem ℝ))
    (h : ∀ id n1 n2 a b c, Elem.NL id n1 n2 a b c ∈ circ → HasDerivAt (fun u => f u id n1 n2) (f' id n1 n2) t) :
    HasDerivAt (fun u => devSum (f u) circ) (devSum f' circ) t := by
  induction circ with
  | nil => simpa [devSum] using hasDerivAt_const t (0 : ℝ)
  | cons e r ih =>
    simp only [devSum_cons]
    refine HasDerivAt.add ?_ (ih fun id n1 n2 a b c hm => h id n1 n2 a b c (List.mem_cons_of_mem _ hm))
    cases e with
    | NL id n1 n2 a b c => exact h id n1 n2 a b c (List.mem_cons_self ..)
    | _ => exact hasDerivAt_const t (0 : ℝ)

/-- The laws of the devices have at the operating point `y` the conductances that the code uses, and these are not zero. -/
def Smooth {m : Nat} (law : String → Law ℝ) (circ : List (Elem ℝ)) (y : Fin m → ℝ) : Prop :=
  ∀ id n1 n2 a b c, Elem.NL id n1 n2 a b c ∈ circ →
    HasDerivAt (law id).i ((law id).gm (Rlc.ext y n1 - Rlc.ext y n2)) (Rlc.ext y n1 - Rlc.ext y n2) ∧
    (law id).gm (Rlc.ext y n1 - Rlc.ext y n2) ≠ 0

/-- C149: let the DC values of all sources be changed by `u` times their AC values, and let `x u` be an operating point
that depends on `u` differentiably. Its derivative satisfies the equations of AC analysis at frequency zero. -/
theorem C149_derivative {m nv : Nat} {circ : List (Elem ℝ)} {s : Sys ℝ} {S : ℝ → Sys ℝ} {law : String → Law ℝ} (g gmin : ℝ)
    (he : ∀ e ∈ circ, NodesLt nv e) (hp : ∀ e ∈ circ, Proper e) (ha : ∀ e ∈ circ, Apart e)
    (hs : ∀ e ∈ circ, Static e) (h : generate circ nv = .ok s) (hm : s.size = m + 1)
    (hS : ∀ u, generate (circ.map (bump u)) nv = .ok (S u)) {x : ℝ → Fin m → ℝ}
    (hx : ∀ᶠ u in 𝓝 0, IsPoint nv g law (circ.map (bump u)) (S u) (x u)) {x' : Fin m → ℝ} (hd : HasDerivAt x x' 0)
    (hl : Smooth law circ (x 0)) (i : Fin m) :
    (Rlc.reduce m s.M + Op.gminMat (nv - 1) g + matJ gmin law circ (x 0)).mulVec x' i +
      (genNac circ nv).2 (i.val + 1) = 0 := by
  have hsz := (generate_row (fun _ => 0) he hp h).1
  -- the equations
  have eqs : (fun u => (Rlc.reduce m s.M + Op.gminMat (nv - 1) g).mulVec (x u) i +
      (s.N (i.val + 1) + u * (genNac circ nv).2 (i.val + 1)) +
      devSum (fun id n1 n2 => inj n1 n2 ((law id).i (Rlc.ext (x u) n1 - Rlc.ext (x u) n2)) (i.val + 1)) circ)
      =ᶠ[𝓝 0] fun _ => 0 := by
    filter_upwards [hx] with u hu
    obtain ⟨-, hb⟩ := bump_rows u he hp hs h (hS u)
    obtain ⟨hM, hN⟩ := hb (i.val + 1) (by rw [hm]; omega)
    have := hu i
    rw [vecT_eq law (fun e hin => by obtain ⟨e, hin2, rfl⟩ := List.mem_map.1 hin; exact apart_bump u (ha e hin2)),
      currents, devSum_bump, hN, Matrix.add_mulVec, Pi.add_apply, Rlc.reduce_row] at this
    rw [hm] at hM
    rw [hM] at this
    rw [Matrix.add_mulVec, Pi.add_apply, Rlc.reduce_row]
    exact this
  -- their derivative
  have d1 : HasDerivAt (fun u => (Rlc.reduce m s.M + Op.gminMat (nv - 1) g).mulVec (x u) i)
      ((Rlc.reduce m s.M + Op.gminMat (nv - 1) g).mulVec x' i) 0 := by
    simp only [Matrix.mulVec, dotProduct]
    exact HasDerivAt.fun_sum fun j _ => ((hasDerivAt_pi.1 hd) j).const_mul _
  have d2 : HasDerivAt (fun u : ℝ => s.N (i.val + 1) + u * (genNac circ nv).2 (i.val + 1))
      ((genNac circ nv).2 (i.val + 1)) 0 := by
    have := ((hasDerivAt_id (0 : ℝ)).mul_const ((genNac circ nv).2 (i.val + 1))).const_add (s.N (i.val + 1))
    simpa using this
  have d3 := devSum_deriv (t := 0)
    (fun u id n1 n2 => inj n1 n2 ((law id).i (Rlc.ext (x u) n1 - Rlc.ext (x u) n2)) (i.val + 1))
    (fun id n1 n2 => inj n1 n2 ((law id).gm (Rlc.ext (x 0) n1 - Rlc.ext (x 0) n2) *
      (Rlc.ext x' n1 - Rlc.ext x' n2)) (i.val + 1)) circ (by
      intro id n1 n2 a b c hin
      have k1 := ((ext_deriv hd n1).fun_sub (ext_deriv hd n2))
      have k2 := (hl id n1 n2 a b c hin).1.comp (0 : ℝ) k1
      simp only [inj]
      refine HasDerivAt.fun_sub ?_ ?_
      · split_ifs
        · exact k2
        · exact hasDerivAt_const _ _
      · split_ifs
        · exact k2
        · exact hasDerivAt_const _ _)
  have d := ((d1.fun_add d2).fun_add d3).congr_of_eventuallyEq eqs.symm
  have := d.unique (hasDerivAt_const (0 : ℝ) (0 : ℝ))
  rw [Matrix.add_mulVec, Pi.add_apply, matJ_eq gmin law ha he (by omega)]
  have e : devSum (fun id n1 n2 => inj n1 n2 (used gmin ((law id).gm (Rlc.ext (x 0) n1 - Rlc.ext (x 0) n2)) *
      (Rlc.ext x' n1 - Rlc.ext x' n2)) (i.val + 1)) circ =
      devSum (fun id n1 n2 => inj n1 n2 ((law id).gm (Rlc.ext (x 0) n1 - Rlc.ext (x 0) n2) *
      (Rlc.ext x' n1 - Rlc.ext x' n2)) (i.val + 1)) circ :=
    devSum_congr circ fun id n1 n2 a b c hin => by rw [used, if_neg (hl id n1 n2 a b c hin).2]
  rw [e]
  linear_combination this

/-! ### The limit at low frequencies -/

/-- what `ac_analysis` works with: `A` is the matrix of capacitors and inductors, `y` the operating point -/
noncomputable def acOf {m : Nat} (nv : Nat) (g gmin : ℝ) (law : String → Law ℝ) (circ : List (Elem ℝ)) (s : Sys ℝ)
    (A : Mat ℝ) (y : Fin m → ℝ) : Ac.AcIn m where
  mna := Rlc.reduce m s.M
  AC := Rlc.reduce m A
  J := matJ gmin law circ y
  Nac := fun i => (((genNac circ nv).2 (i.val + 1) : ℝ) : ℂ)
  nn := nv - 1
  gmin := g

theorem Y_zero {m : Nat} (nv : Nat) (g gmin : ℝ) (law : String → Law ℝ) (circ : List (Elem ℝ)) (s : Sys ℝ)
    (A : Mat ℝ) (y : Fin m → ℝ) : Ac.Y (acOf nv g gmin law circ s A y) 0 g =
      (Rlc.reduce m s.M + Op.gminMat (nv - 1) g + matJ gmin law circ y).map Complex.ofReal := by
  ext i j
  by_cases h : i = j
  · subst h
    by_cases hi : i.val < nv - 1 <;> simp [Ac.Y, acOf, Op.gminMat, hi] <;> ring
  · simp [Ac.Y, acOf, Op.gminMat, h]

theorem Y_cont {m : Nat} (c : Ac.AcIn m) (g : ℝ) : Continuous fun w : ℝ => Ac.Y c w g := by
  refine continuous_matrix fun i j => ?_
  simp only [Ac.Y, Matrix.of_apply]
  fun_prop

/-- C149: when the linearised circuit is regular, the response that AC analysis reports tends, with falling frequency, to
the derivative of the operating point. -/
theorem C149_limit {m nv : Nat} {circ : List (Elem ℝ)} {s : Sys ℝ} {S : ℝ → Sys ℝ} {law : String → Law ℝ} (g gmin : ℝ)
    (he : ∀ e ∈ circ, NodesLt nv e) (hp : ∀ e ∈ circ, Proper e) (ha : ∀ e ∈ circ, Apart e)
    (hs : ∀ e ∈ circ, Static e) (h : generate circ nv = .ok s) (hm : s.size = m + 1)
    (hS : ∀ u, generate (circ.map (bump u)) nv = .ok (S u)) {x : ℝ → Fin m → ℝ}
    (hx : ∀ᶠ u in 𝓝 0, IsPoint nv g law (circ.map (bump u)) (S u) (x u)) {x' : Fin m → ℝ} (hd : HasDerivAt x x' 0)
    (hl : Smooth law circ (x 0))
    (hr : (Rlc.reduce m s.M + Op.gminMat (nv - 1) g + matJ gmin law circ (x 0)).det ≠ 0) (A : Mat ℝ)
    {z : ℝ → Fin m → ℂ} (hz : ∀ᶠ w in 𝓝[≠] 0, Ac.Solves (acOf nv g gmin law circ s A (x 0)) w (z w)) :
    Tendsto z (𝓝[≠] 0) (𝓝 fun i => (x' i : ℂ)) := by
  set c := acOf nv g gmin law circ s A (x 0) with hc
  have hg : c.gmin = g := rfl
  have h0 : Ac.Y c 0 g = _ := Y_zero nv g gmin law circ s A (x 0)
  have hdet0 : (Ac.Y c 0 g).det ≠ 0 := by
    rw [h0]
    have := (RingHom.map_det Complex.ofRealHom
      (Rlc.reduce m s.M + Op.gminMat (nv - 1) g + matJ gmin law circ (x 0))).symm
    rw [RingHom.mapMatrix_apply] at this
    have e : (Complex.ofRealHom : ℝ → ℂ) = Complex.ofReal := rfl
    rw [e] at this
    rw [this]
    exact_mod_cast hr
  have cont := Y_cont c g
  have cdet : Continuous fun w : ℝ => (Ac.Y c w g).det := cont.matrix_det
  have ev : ∀ᶠ w in 𝓝 (0 : ℝ), (Ac.Y c w g).det ≠ 0 := cdet.continuousAt.eventually_ne hdet0
  have cinv : ContinuousAt (fun w : ℝ => (Ac.Y c w g)⁻¹.mulVec (-c.Nac)) 0 := by
    have : (fun w : ℝ => (Ac.Y c w g)⁻¹.mulVec (-c.Nac)) =
        fun w : ℝ => ((Ac.Y c w g).det)⁻¹ • (Ac.Y c w g).adjugate.mulVec (-c.Nac) := by
      funext w
      rw [Matrix.inv_def, Ring.inverse_eq_inv', Matrix.smul_mulVec]
    rw [this]
    exact (cdet.continuousAt.inv₀ hdet0).smul ((cont.matrix_adjugate.matrix_mulVec continuous_const).continuousAt)
  have lim : (Ac.Y c 0 g)⁻¹.mulVec (-c.Nac) = fun i => (x' i : ℂ) := by
    have eq0 : (Ac.Y c 0 g).mulVec (fun i => (x' i : ℂ)) = -c.Nac := by
      funext i
      have := C149_derivative g gmin he hp ha hs h hm hS hx hd hl i
      rw [h0, Pi.neg_apply]
      have e1 : ((Rlc.reduce m s.M + Op.gminMat (nv - 1) g + matJ gmin law circ (x 0)).map Complex.ofReal).mulVec
          (fun i => (x' i : ℂ)) i =
          (((Rlc.reduce m s.M + Op.gminMat (nv - 1) g + matJ gmin law circ (x 0)).mulVec x' i : ℝ) : ℂ) := by
        simp only [Matrix.mulVec, dotProduct, Matrix.map_apply, Complex.ofReal_sum, Complex.ofReal_mul]
      rw [e1, eq_neg_of_add_eq_zero_left this, Complex.ofReal_neg]
      rfl
    rw [← eq0, Matrix.mulVec_mulVec, Matrix.nonsing_inv_mul _ (isUnit_iff_ne_zero.2 hdet0), Matrix.one_mulVec]
  have t := cinv.tendsto
  rw [lim] at t
  refine (t.mono_left nhdsWithin_le_nhds).congr' ?_
  filter_upwards [hz, nhdsWithin_le_nhds ev] with w hw hdw
  rcases hw with ⟨-, hw⟩ | ⟨hw, -⟩
  · have hw' : (Ac.Y c w g).mulVec (z w) = -c.Nac := eq_neg_of_add_eq_zero_left hw
    rw [← hw', Matrix.mulVec_mulVec, Matrix.nonsing_inv_mul _ (isUnit_iff_ne_zero.2 hdw), Matrix.one_mulVec]
  · exact absurd hw hdw

/-! ### Examples -/

/-- a device with an exponential law, fed by a current -/
noncomputable def expCirc : List (Elem ℝ) :=
  [.I "I1" 0 1 ⟨some 2, some 1, false, none⟩, .NL "D1" 1 0 none [(1, 0)] [(1, 0)], .C "C1" 1 0 3 none]

noncomputable def expLaw : String → Law ℝ := fun _ => ⟨Real.exp, Real.exp⟩

theorem expCirc_sound : (∀ e ∈ expCirc, NodesLt 2 e) ∧ (∀ e ∈ expCirc, Proper e) ∧ (∀ e ∈ expCirc, Apart e) ∧
    ∀ e ∈ expCirc, Static e := by
  simp [expCirc, NodesLt, Proper, Apart, Static]

theorem exp_point (u : ℝ) (hu : 0 < 2 + u) :
    IsPoint 2 0 expLaw (expCirc.map (bump u)) (sysR (expCirc.map (bump u)) 2) ![Real.log (2 + u)] := by
  intro i
  obtain rfl : i = 0 := Subsingleton.elim _ _
  have h1 : Rlc.reduce 1 (sysR (expCirc.map (bump u)) 2).M 0 0 = 0 := by
    simp [Rlc.reduce, sysR, expCirc, bump, bumpS, Mna.generate, loop, stamp1, stamp2, stamp3, Mat.put, Vec.put, Vec.add, Src.eval]
  have h2 : (sysR (expCirc.map (bump u)) 2).N 1 = -(2 + u) := by
    simp [sysR, expCirc, bump, bumpS, Mna.generate, loop, stamp1, stamp2, stamp3, Mat.put, Vec.put, Vec.add, Src.eval]
  have h3 : (Op.gminMat 1 0 : Matrix (Fin 1) (Fin 1) ℝ) 0 0 = 0 := by simp [Op.gminMat]
  rw [vecT_eq expLaw (fun e hin => by
    obtain ⟨e, hin2, rfl⟩ := List.mem_map.1 hin
    exact apart_bump u (expCirc_sound.2.2.1 e hin2)), currents, devSum_bump]
  simp only [Matrix.mulVec, dotProduct, Fin.sum_univ_one, Matrix.add_apply, h1]
  change (0 + (Op.gminMat 1 0 : Matrix (Fin 1) (Fin 1) ℝ) 0 0) * _ + (sysR (expCirc.map (bump u)) 2).N 1 + _ = 0
  rw [h2, h3]
  simp [devSum, devTerm, expCirc, inj, expLaw, Rlc.ext, Real.exp_log hu]

/-- its operating point is the logarithm of the current, its AC response at low frequencies the derivative of that -/
example {z : ℝ → Fin 1 → ℂ} (A : Mat ℝ)
    (hz : ∀ᶠ w in 𝓝[≠] 0, Ac.Solves (acOf 2 0 1 expLaw expCirc (sysR expCirc 2) A ![Real.log 2]) w (z w)) :
    Tendsto z (𝓝[≠] 0) (𝓝 fun i => ((![1 / 2] : Fin 1 → ℝ) i : ℂ)) := by
  obtain ⟨h1, h2, h3, h4⟩ := expCirc_sound
  have hl : Smooth expLaw expCirc ![Real.log 2] := fun id n1 n2 a b c _ =>
    ⟨Real.hasDerivAt_exp _, Real.exp_ne_zero _⟩
  have hx0 : (![Real.log (2 + 0)] : Fin 1 → ℝ) = ![Real.log 2] := by simp
  refine C149_limit 0 1 h1 h2 h3 h4 (s := sysR expCirc 2) (S := fun u => sysR (expCirc.map (bump u)) 2) rfl rfl
    (fun u => rfl) (x := fun u => ![Real.log (2 + u)]) ?_ ?_ (by rw [hx0]; exact hl) ?_ A (by rw [hx0]; exact hz)
  · filter_upwards [lt_mem_nhds (show (-2 : ℝ) < 0 by norm_num)] with u hu
    exact exp_point u (by linarith)
  · refine hasDerivAt_pi.2 fun i => ?_
    obtain rfl : i = 0 := Subsingleton.elim _ _
    have := ((hasDerivAt_id (0 : ℝ)).const_add 2).log (by norm_num)
    simpa using this
  · rw [Matrix.det_fin_one]
    have k := C149_derivative 0 1 h1 h2 h3 h4 (s := sysR expCirc 2) (S := fun u => sysR (expCirc.map (bump u)) 2) rfl rfl
      (fun u => rfl) (x := fun u => ![Real.log (2 + u)]) (x' := ![1 / 2]) (by
        filter_upwards [lt_mem_nhds (show (-2 : ℝ) < 0 by norm_num)] with u hu
        exact exp_point u (by linarith)) (by
        refine hasDerivAt_pi.2 fun i => ?_
        obtain rfl : i = 0 := Subsingleton.elim _ _
        have := ((hasDerivAt_id (0 : ℝ)).const_add 2).log (by norm_num)
        simpa using this) (by rw [hx0]; exact hl) 0
    intro hd
    rw [Matrix.mulVec, dotProduct, Fin.sum_univ_one, hd] at k
    have hn : (genNac expCirc 2).2 1 = -1 := by
      simp [genNac, expCirc, nac1, nac2, Vec.put, Vec.add, Elem.vde]
    change _ + (genNac expCirc 2).2 1 = 0 at k
    rw [hn] at k
    norm_num at k

/-- a current source and a resistor -/
noncomputable def ohm : List (Elem ℝ) := [.I "I1" 0 1 ⟨some 1, some 1, false, none⟩, .R "R1" 1 0 1]

theorem ohm_point (u : ℝ) : IsPoint 2 0 expLaw (ohm.map (bump u)) (sysR (ohm.map (bump u)) 2) ![1 + u] := by
  intro i
  obtain rfl : i = 0 := Subsingleton.elim _ _
  have h1 : Rlc.reduce 1 (sysR (ohm.map (bump u)) 2).M 0 0 = 1 := by
    simp [Rlc.reduce, sysR, ohm, bump, bumpS, Mna.generate, loop, stamp1, stamp2, stamp3, Mat.add, Mat.put, Vec.put, Vec.add, Src.eval]
  have h2 : (sysR (ohm.map (bump u)) 2).N 1 = -(1 + u) := by
    simp [sysR, ohm, bump, bumpS, Mna.generate, loop, stamp1, stamp2, stamp3, Mat.put, Vec.put, Vec.add, Src.eval]
  have h3 : (Op.gminMat 1 0 : Matrix (Fin 1) (Fin 1) ℝ) 0 0 = 0 := by simp [Op.gminMat]
  rw [vecT_eq expLaw (fun e hin => by
    obtain ⟨e, hin2, rfl⟩ := List.mem_map.1 hin
    refine apart_bump u ?_
    simp only [ohm, List.mem_cons, List.not_mem_nil, or_false] at hin2
    rcases hin2 with rfl | rfl <;> trivial), currents, devSum_bump]
  simp only [Matrix.mulVec, dotProduct, Fin.sum_univ_one, Matrix.add_apply, h1]
  change (1 + (Op.gminMat 1 0 : Matrix (Fin 1) (Fin 1) ℝ) 0 0) * _ + (sysR (ohm.map (bump u)) 2).N 1 + _ = 0
  rw [h2, h3]
  simp [devSum, devTerm, ohm]

/-- C149, disagreement: `op_analysis` reports operating points without Gmin, `ac_analysis` keeps it. The operating point of
this circuit changes by one volt per ampere, the AC response is smaller at all frequencies. -/
theorem C149_gmin_refuted (g : ℝ) (hg : 0 < g) (A : Mat ℝ) (hA : Rlc.reduce 1 A = 0) :
    (∀ u, IsPoint 2 0 expLaw (ohm.map (bump u)) (sysR (ohm.map (bump u)) 2) ![1 + u]) ∧
    ∀ w z, Ac.Solves (acOf 2 g g expLaw ohm (sysR ohm 2) A ![1]) w z → z 0 = (((1 + g)⁻¹ : ℝ) : ℂ) ∧ z 0 ≠ 1 := by
  refine ⟨ohm_point, fun w z hz => ?_⟩
  have hM : (Rlc.reduce 1 (sysR ohm 2).M) 0 0 = 1 := by
    simp [Rlc.reduce, sysR, ohm, Mna.generate, loop, stamp1, stamp2, stamp3, Mat.add, Mat.put, Vec.put, Vec.add, Src.eval]
  have hJ : (matJ g expLaw ohm ![1]) (0 : Fin 1) 0 = 0 := by simp [matJ, updateJ, ohm]
  have hn : (genNac ohm 2).2 1 = -1 := by
    simp [genNac, ohm, nac1, nac2, Vec.put, Vec.add, Elem.vde]
  have hY : ∀ b : ℝ, Ac.Y (acOf 2 g g expLaw ohm (sysR ohm 2) A ![1]) w b 0 0 = 1 + (b : ℂ) := by
    intro b
    simp [Ac.Y, acOf, hM, hJ, hA]
  have hne : (1 + (g : ℂ)) ≠ 0 := by
    have : (1 + g : ℝ) ≠ 0 := by positivity
    exact_mod_cast this
  have hz0 : (1 + (g : ℂ)) * z 0 + -1 = 0 := by
    rcases hz with ⟨-, hz⟩ | ⟨hz, -⟩
    · have := congrFun hz 0
      rw [Pi.add_apply, Matrix.mulVec, dotProduct, Fin.sum_univ_one] at this
      change Ac.Y _ w g 0 0 * z 0 + (((genNac ohm 2).2 1 : ℝ) : ℂ) = 0 at this
      rw [hY, hn] at this
      simpa using this
    · rw [Matrix.det_fin_one] at hz
      exact absurd ((hY g).symm.trans hz) hne
  have e : z 0 = (((1 + g)⁻¹ : ℝ) : ℂ) := by
    push_cast
    field_simp
    linear_combination hz0
  refine ⟨e, fun h1 => ?_⟩
  rw [h1] at hz0
  have : (g : ℂ) = 0 := by linear_combination hz0
  exact hg.ne' (by exact_mod_cast this)

end Verif.Signal
