import Verif.Props.Rlc
import Verif.Props.MnaSrc
import Verif.Props.Ac

/-!
C139: circuits of resistors, capacitors, inductors, couplings and independent sources are reciprocal.
-/

namespace Verif.Recip
open Verif.Circuit Verif.Mna Verif.Dyn Verif.Rlc

variable {K : Type} [Field K]

/-- resistor, capacitor, inductor, coupling or independent source, the voltage-defined ones not shorted -/
def TwoPole : Elem K → Prop
  | .R .. | .C .. | .K _ | .I .. => True
  | .L _ n1 n2 _ _ _ | .V _ n1 n2 _ => n1 ≠ n2
  | _ => False

/-! ### The forms of the assembled matrices -/

/-- the form of a resistor -/
def resForm (x y : Vec K) : Elem K → K
  | .R _ n1 n2 r => (x n1 - x n2) * (y n1 - y n2) / r
  | _ => 0

/-- the form of a branch: current times voltage -/
def cross (nv : Nat) (x y : Vec K) (k : Nat) (e : Elem K) : K :=
  (x (term e).1 - x (term e).2) * y (nv + k) + x (nv + k) * (y (term e).1 - y (term e).2)

omit [Field K] in
theorem recip_static {circ : List (Elem K)} (hp : ∀ e ∈ circ, TwoPole e) :
    (∀ e ∈ circ, Proper e) ∧ (∀ e ∈ circ, Mna.Plain e) := by
  constructor <;> intro e he <;> have := hp e he <;> cases e <;> simp_all [TwoPole, Proper, Mna.Plain]

theorem kcl_linear {circ : List (Elem K)} {nv : Nat} (x : Vec K) (val : Src K → K) (l : List (Elem K)) (k r : Nat)
    (hp : ∀ e ∈ l, TwoPole e) :
    kcl circ nv x val l k r = kcl circ nv x (fun _ => 0) l k r + kcl circ nv (fun _ => 0) val l k r := by
  induction l generalizing k with
  | nil => simp [kcl]
  | cons e t ih =>
    have h1 := hp e (List.mem_cons_self ..)
    simp only [kcl]
    rw [ih _ fun e' h' => hp e' (List.mem_cons_of_mem _ h')]
    cases e <;> simp only [TwoPole] at h1 <;> simp [current, inj] <;> ring

theorem law_linear {circ : List (Elem K)} {nv : Nat} (x : Vec K) (val : Src K → K) (e : Elem K) (h : TwoPole e) :
    law circ nv x val e = law circ nv x (fun _ => 0) e + law circ nv (fun _ => 0) val e := by
  cases e <;> simp only [TwoPole] at h <;> simp [law] <;> ring

theorem kcl_form {circ : List (Elem K)} {nv : Nat} (hnv : 0 < nv) (x y : Vec K)
    (l : List (Elem K)) (k : Nat) (hp : ∀ e ∈ l, TwoPole e) (he : ∀ e ∈ l, NodesLt nv e) :
    ∑ r ∈ Finset.range nv, x r * kcl circ nv y (fun _ => 0) l k r =
      (l.map (resForm x y)).sum + brSum (fun j e => (x (term e).1 - x (term e).2) * y (nv + j)) l k := by
  induction l generalizing k with
  | nil => simp [kcl, brSum]
  | cons e t ih =>
    have h1 := hp e (List.mem_cons_self ..)
    have h2 := (he e (List.mem_cons_self ..)).term_lt' hnv
    simp only [kcl, mul_add, Finset.sum_add_distrib, brSum, List.map_cons, List.sum_cons]
    rw [ih _ (fun e' h' => hp e' (List.mem_cons_of_mem _ h')) (fun e' h' => he e' (List.mem_cons_of_mem _ h')),
      sum_inj x _ _ _ h2.1 h2.2]
    cases e <;> simp only [TwoPole] at h1 <;> simp [resForm, current, term, Elem.vde] <;> ring

/-- what the assembled equations say without the constant terms -/
theorem rows_linear {nv : Nat} {circ : List (Elem K)} {s : Sys K} (he : ∀ e ∈ circ, NodesLt nv e)
    (hp : ∀ e ∈ circ, TwoPole e) (h : generate circ nv = .ok s) (x : Vec K) :
    s.size = nv + (vdes circ).length ∧
    (∀ r, r < nv → mulVec s.size s.M x r = kcl circ nv x (fun _ => 0) circ 0 r ∧
      s.N r = kcl circ nv (fun _ => 0) staticVal circ 0 r) ∧
    (∀ k e, (vdes circ)[k]? = some e → mulVec s.size s.M x (nv + k) = law circ nv x (fun _ => 0) e ∧
      s.N (nv + k) = law circ nv (fun _ => 0) staticVal e) := by
  obtain ⟨h1, h2⟩ := recip_static hp
  obtain ⟨hz, hn, hb⟩ := C07_equations_are_circuit_laws_partial he h1 h2 h x
  obtain ⟨-, hn0, hb0⟩ := C07_equations_are_circuit_laws_partial he h1 h2 h (fun _ => 0)
  have h0 : ∀ r, mulVec s.size s.M (fun _ => (0 : K)) r = 0 := fun r => by simp [mulVec]
  refine ⟨hz, fun r hr => ?_, fun k e hk => ?_⟩
  · have a := hn r hr
    have b := hn0 r hr
    rw [h0, zero_add] at b
    rw [kcl_linear x _ _ _ _ hp, b] at a
    exact ⟨add_right_cancel a, b⟩
  · have a := hb k e hk
    have b := hb0 k e hk
    have hin : e ∈ circ := (List.mem_filter.1 (List.mem_of_getElem? hk)).1
    rw [h0, zero_add] at b
    rw [law_linear x _ _ (hp e hin), b] at a
    exact ⟨add_right_cancel a, b⟩

/-- the form of the node rows of the assembled matrix -/
theorem static_node {nv : Nat} {circ : List (Elem K)} {s : Sys K} (hnv : 0 < nv) (he : ∀ e ∈ circ, NodesLt nv e)
    (hp : ∀ e ∈ circ, TwoPole e) (h : generate circ nv = .ok s) (x y : Vec K) :
    ∑ r ∈ Finset.range nv, x r * mulVec s.size s.M y r = (circ.map (resForm x y)).sum +
      brSum (fun j e => (x (term e).1 - x (term e).2) * y (nv + j)) circ 0 := by
  obtain ⟨-, hn, -⟩ := rows_linear he hp h y
  rw [← kcl_form hnv _ _ _ _ hp he]
  exact Finset.sum_congr rfl fun r hr => by rw [(hn r (Finset.mem_range.1 hr)).1]

/-- the form of its branch rows -/
theorem static_branch {nv : Nat} {circ : List (Elem K)} {s : Sys K} (he : ∀ e ∈ circ, NodesLt nv e)
    (hp : ∀ e ∈ circ, TwoPole e) (h : generate circ nv = .ok s) (x y : Vec K) :
    ∑ j ∈ Finset.range (vdes circ).length, x (nv + j) * mulVec s.size s.M y (nv + j) =
      brSum (fun j e => x (nv + j) * (y (term e).1 - y (term e).2)) circ 0 := by
  obtain ⟨-, -, hb⟩ := rows_linear he hp h y
  rw [brSum_eq _ (fun j => x (nv + j) * mulVec s.size s.M y (nv + j))]
  · simp
  · intro j e hj
    have hin : e ∈ circ := (List.mem_filter.1 (List.mem_of_getElem? hj)).1
    have hv : e.vde = true := (List.mem_filter.1 (List.mem_of_getElem? hj)).2
    have h1 := hp e hin
    rw [Nat.zero_add, (hb j e hj).1]
    cases e <;> simp only [TwoPole] at h1 <;> simp only [Elem.vde, Bool.false_eq_true] at hv <;> simp [law, term]

/-- the bilinear form of the assembled matrix -/
theorem static_bil {nv : Nat} {circ : List (Elem K)} {s : Sys K} (hnv : 0 < nv) (he : ∀ e ∈ circ, NodesLt nv e)
    (hp : ∀ e ∈ circ, TwoPole e) (h : generate circ nv = .ok s) (x y : Vec K) :
    ∑ r ∈ Finset.range s.size, x r * mulVec s.size s.M y r =
      (circ.map (resForm x y)).sum + brSum (cross nv x y) circ 0 := by
  have hz := (rows_linear he hp h y).1
  conv_lhs => rw [show Finset.range s.size = Finset.range (nv + (vdes circ).length) by rw [hz]]
  rw [Finset.sum_range_add, static_node hnv he hp h, static_branch he hp h, add_assoc, ← brSum_add]
  rfl

/-- the form of the node rows of the dynamic matrix -/
theorem dynamic_node {nv : Nat} {circ : List (Elem K)} {cmin : K} {D : Mat K} (hnv : 0 < nv)
    (he : ∀ e ∈ circ, NodesLt nv e)
    (h : generateD circ nv (nv + (vdes circ).length) cmin = .ok D) (x y : Vec K) (hx : x 0 = 0) (hy : y 0 = 0) :
    ∑ r ∈ Finset.range nv, x r * mulVec (nv + (vdes circ).length) D y r =
      (circ.map (capForm x y)).sum + cmin * ∑ r ∈ Finset.range nv, x r * y r := by
  have e1 : ∀ l : List (Elem K), (∀ e ∈ l, NodesLt nv e) → ∑ r ∈ Finset.range nv, x r *
      (l.map (fun e => inj (term e).1 (term e).2 (capCurrent y e) r)).sum = (l.map (capForm x y)).sum := by
    intro l
    induction l with
    | nil => simp
    | cons e t ih =>
      intro hl
      have h2 := (hl e (List.mem_cons_self ..)).term_lt' hnv
      simp only [List.map_cons, List.sum_cons, mul_add, Finset.sum_add_distrib]
      rw [ih fun e' h' => hl e' (List.mem_cons_of_mem _ h'), sum_inj _ _ _ _ h2.1 h2.2]
      congr 1
      cases e <;> simp [capCurrent, capForm, term]
      ring
  rw [← e1 circ he, Finset.mul_sum, ← Finset.sum_add_distrib]
  refine Finset.sum_congr rfl fun r hr => ?_
  have hr := Finset.mem_range.1 hr
  cases r with
  | zero => simp [hx]
  | succ r =>
    rw [C08_node_rows he h y hy (r + 1) (by omega) hr]
    ring

/-- the form of its branch rows -/
theorem dynamic_branch {nv : Nat} {circ : List (Elem K)} {cmin : K} {D : Mat K} (hnv : 0 < nv)
    (he : ∀ e ∈ circ, NodesLt nv e) (hp : ∀ e ∈ circ, TwoPole e)
    (h : generateD circ nv (nv + (vdes circ).length) cmin = .ok D) (x y : Vec K) (hy : y 0 = 0) :
    ∑ j ∈ Finset.range (vdes circ).length, x (nv + j) * mulVec (nv + (vdes circ).length) D y (nv + j) =
      -magForm circ nv x y := by
  rw [magForm, ← brSum_add, brSum_eq _ (fun j => -(x (nv + j) * mulVec (nv + (vdes circ).length) D y (nv + j)))]
  · simp
  · intro j e hj
    have hin : e ∈ circ := (List.mem_filter.1 (List.mem_of_getElem? hj)).1
    have hv : e.vde = true := (List.mem_filter.1 (List.mem_of_getElem? hj)).2
    have h1 := hp e hin
    rw [Nat.zero_add, C08_branch_rows hnv he h y hy j e hj]
    cases e <;> simp only [TwoPole] at h1 <;> simp only [Elem.vde, Bool.false_eq_true] at hv <;>
      simp only [flux, indForm, mutForm, mul_zero, neg_zero, add_zero]
    ring

/-- the bilinear form of the dynamic matrix -/
theorem dynamic_bil {nv : Nat} {circ : List (Elem K)} {cmin : K} {D : Mat K} (hnv : 0 < nv)
    (he : ∀ e ∈ circ, NodesLt nv e) (hp : ∀ e ∈ circ, TwoPole e)
    (h : generateD circ nv (nv + (vdes circ).length) cmin = .ok D) (x y : Vec K) (hx : x 0 = 0) (hy : y 0 = 0) :
    ∑ r ∈ Finset.range (nv + (vdes circ).length), x r * mulVec (nv + (vdes circ).length) D y r =
      (circ.map (capForm x y)).sum + cmin * ∑ r ∈ Finset.range nv, x r * y r - magForm circ nv x y := by
  rw [Finset.sum_range_add, dynamic_node hnv he h x y hx hy, dynamic_branch hnv he hp h x y hy, sub_eq_add_neg]

/-! ### Circuits that differ in their sources only -/

/-- an element without its source values: current sources disappear, voltage sources become short circuits -/
def bare : Elem K → Option (Elem K)
  | .I .. => none
  | .V id n1 n2 _ => some (.V id n1 n2 {})
  | e => some e

theorem sum_bare (f : Elem K → K) (hI : ∀ id a b s, f (.I id a b s) = 0) (hV : ∀ id a b s, f (.V id a b s) = 0)
    (l : List (Elem K)) : ((l.filterMap bare).map f).sum = (l.map f).sum := by
  induction l with
  | nil => rfl
  | cons e t ih =>
    rw [List.filterMap_cons]
    cases e <;> simp [bare, ih, hI, hV]

theorem brSum_bare (f : Nat → Elem K → K) (hV : ∀ k id a b s, f k (.V id a b s) = f k (.V id a b {}))
    (l : List (Elem K)) (k : Nat) : brSum f (l.filterMap bare) k = brSum f l k := by
  induction l generalizing k with
  | nil => rfl
  | cons e t ih =>
    rw [List.filterMap_cons]
    cases e <;> simp [bare, brSum, Elem.vde, ih]
    exact (hV ..).symm

theorem vdes_bare (l : List (Elem K)) :
    (vdes (l.filterMap bare)).map (fun e => upper e.id) = (vdes l).map (fun e => upper e.id) := by
  induction l with
  | nil => rfl
  | cons e t ih =>
    rw [List.filterMap_cons]
    cases e <;> simp only [bare, vdes_cons, Elem.vde, ih, List.map_cons, if_true, if_false, Bool.false_eq_true] <;> rfl

theorem branchOf_bare (l : List (Elem K)) (s : String) : branchOf (l.filterMap bare) s = branchOf l s := by
  have key : ∀ l : List (Elem K), branchOf l s =
      ((vdes l).map (fun e => upper e.id)).findIdx (fun u => u = upper s) := by
    intro l
    unfold branchOf
    rw [List.findIdx_map]
    rfl
  rw [key, key, vdes_bare]

theorem magForm_bare (circ : List (Elem K)) (nv : Nat) (x y : Vec K) :
    magForm (circ.filterMap bare) nv x y = magForm circ nv x y := by
  unfold magForm
  congr 1
  · exact brSum_bare _ (fun _ _ _ _ _ => rfl) _ _
  · rw [brSum_bare _ (fun _ _ _ _ _ => rfl)]
    congr 1
    funext k e
    cases e <;> simp only [mutForm, mutualTerm, branchOf_bare]

/-- the forms of two circuits that differ in their sources only are the same -/
theorem forms_bare {A B : List (Elem K)} (hs : A.filterMap bare = B.filterMap bare) (nv : Nat) (x y : Vec K) :
    (A.map (resForm x y)).sum = (B.map (resForm x y)).sum ∧ brSum (cross nv x y) A 0 = brSum (cross nv x y) B 0 ∧
    (A.map (capForm x y)).sum = (B.map (capForm x y)).sum ∧ magForm A nv x y = magForm B nv x y ∧
    (vdes A).length = (vdes B).length := by
  refine ⟨?_, ?_, ?_, ?_, ?_⟩
  · rw [← sum_bare _ (fun _ _ _ _ => rfl) (fun _ _ _ _ => rfl), hs, sum_bare _ (fun _ _ _ _ => rfl) (fun _ _ _ _ => rfl)]
  · rw [← brSum_bare _ (fun _ _ _ _ _ => rfl), hs, brSum_bare _ (fun _ _ _ _ _ => rfl)]
  · rw [← sum_bare _ (fun _ _ _ _ => rfl) (fun _ _ _ _ => rfl), hs, sum_bare _ (fun _ _ _ _ => rfl) (fun _ _ _ _ => rfl)]
  · rw [← magForm_bare, hs, magForm_bare]
  · have := congrArg List.length (congrArg (List.map fun e => upper e.id) (congrArg vdes hs))
    rw [vdes_bare, vdes_bare] at this
    simpa using this

/-! ### The response of one circuit weighed with the sources of another -/

def srcNode (val : Src K → K) (x : Vec K) : Elem K → K
  | .I _ n1 n2 s => val s * (x n1 - x n2)
  | _ => 0

def srcBranch (val : Src K → K) (nv : Nat) (x : Vec K) (k : Nat) : Elem K → K
  | .V _ _ _ s => val s * x (nv + k)
  | _ => 0

/-- for every current source its value times the voltage across it, less for every voltage source its value times
the current through it -/
def drive (val : Src K → K) (circ : List (Elem K)) (nv : Nat) (x : Vec K) : K :=
  (circ.map (srcNode val x)).sum - brSum (srcBranch val nv x) circ 0

theorem drive_of {nv : Nat} {circ : List (Elem K)} (hnv : 0 < nv) (he : ∀ e ∈ circ, NodesLt nv e) (val : Src K → K)
    (N : Vec K) (x : Vec K)
    (hn : ∀ r < nv, N r = (circ.map fun e => match e with
      | .I _ n1 n2 s => inj n1 n2 (val s) r
      | _ => 0).sum)
    (hb : ∀ k e, (vdes circ)[k]? = some e → N (nv + k) = match e with
      | .V _ _ _ s => -val s
      | _ => 0) :
    ∑ r ∈ Finset.range (nv + (vdes circ).length), x r * N r = drive val circ nv x := by
  rw [Finset.sum_range_add, drive, sub_eq_add_neg]
  congr 1
  · rw [Finset.sum_congr rfl fun r hr => by rw [hn r (Finset.mem_range.1 hr)]]
    clear hn hb
    induction circ with
    | nil => simp
    | cons e t ih =>
      have h2 := (he e (List.mem_cons_self ..)).term_lt' hnv
      simp only [List.map_cons, List.sum_cons, mul_add, Finset.sum_add_distrib]
      rw [ih fun e' h' => he e' (List.mem_cons_of_mem _ h')]
      congr 1
      cases e <;> simp only [mul_zero, Finset.sum_const_zero, srcNode]
      refine (sum_inj x _ _ _ h2.1 h2.2).trans ?_
      simp only [term]
      ring
  · rw [brSum_eq _ (fun j => -(x (nv + j) * N (nv + j)))]
    · simp
    · intro j e hj
      have hv : e.vde = true := (List.mem_filter.1 (List.mem_of_getElem? hj)).2
      rw [Nat.zero_add, hb j e hj]
      cases e <;> simp only [Elem.vde, Bool.false_eq_true] at hv <;> simp [srcBranch]
      ring

theorem inj_zero (a b r : Nat) : inj a b (0 : K) r = 0 := by
  unfold inj
  split_ifs <;> simp

theorem kcl_const {circ : List (Elem K)} {nv : Nat} (val : Src K → K) (l : List (Elem K)) (k r : Nat)
    (hp : ∀ e ∈ l, TwoPole e) : kcl circ nv (fun _ => 0) val l k r = (l.map fun e => match e with
      | .I _ n1 n2 s => inj n1 n2 (val s) r
      | _ => 0).sum := by
  induction l generalizing k with
  | nil => rfl
  | cons e t ih =>
    have h1 := hp e (List.mem_cons_self ..)
    rw [kcl, ih _ fun e' h' => hp e' (List.mem_cons_of_mem _ h'), List.map_cons, List.sum_cons]
    congr 1
    cases e <;> simp only [TwoPole] at h1 <;> simp only [current, term, sub_self, zero_div, inj_zero]

/-- the constant terms of the operating point -/
theorem drive_dc {nv : Nat} {circ : List (Elem K)} {s : Sys K} (hnv : 0 < nv) (he : ∀ e ∈ circ, NodesLt nv e)
    (hp : ∀ e ∈ circ, TwoPole e) (h : generate circ nv = .ok s) (x : Vec K) :
    ∑ r ∈ Finset.range s.size, x r * s.N r = drive staticVal circ nv x := by
  obtain ⟨hz, hn, hb⟩ := rows_linear he hp h x
  rw [hz]
  refine drive_of hnv he _ _ _ (fun r hr => ?_) fun k e hk => ?_
  · rw [(hn r hr).2, kcl_const _ _ _ _ hp]
  · rw [(hb k e hk).2]
    have hin : e ∈ circ := (List.mem_filter.1 (List.mem_of_getElem? hk)).1
    have h1 := hp e hin
    cases e <;> simp only [TwoPole] at h1 <;> simp [law]

/-- the phasor of a source, zero if it has none -/
def acVal (s : Src K) : K := s.ac.getD 0

theorem drive_ac {nv : Nat} {circ : List (Elem K)} (hnv : 0 < nv) (he : ∀ e ∈ circ, NodesLt nv e) (x : Vec K) :
    ∑ r ∈ Finset.range (nv + (vdes circ).length), x r * (genNac circ nv).2 r = drive acVal circ nv x := by
  obtain ⟨-, h1, h2⟩ := C10_ac_excitation circ nv he
  refine drive_of hnv he _ _ _ (fun r hr => ?_) fun k e hk => ?_
  · rw [h1 r hr]
    rfl
  · rw [h2 k e hk]
    cases e <;> simp [acBranch, acVal]

/-! ### Reciprocity -/

theorem brSum_congr (f g : Nat → Elem K → K) (l : List (Elem K)) (k : Nat) (h : ∀ k e, f k e = g k e) :
    brSum f l k = brSum g l k := by
  rw [show f = g from funext fun k => funext (h k)]

theorem resForm_symm (x y : Vec K) (e : Elem K) : resForm x y e = resForm y x e := by
  cases e <;> simp only [resForm]
  ring

/-- the unknowns satisfy the equations of the analysis: `(M + s D + g) x + N = 0` in every row except that of the
reference, whose voltage is zero. The conductance `g` is connected to the nodes only (Gmin). -/
def Solution (nv S : Nat) (M D : Mat K) (N : Vec K) (s g : K) (x : Vec K) : Prop :=
  x 0 = 0 ∧ ∀ r, 0 < r → r < S →
    mulVec S M x r + s * mulVec S D x r + (if r < nv then g * x r else 0) + N r = 0

theorem solution_weighed {nv S : Nat} (hS : nv ≤ S) {M D : Mat K} {N : Vec K} {s g : K} {x : Vec K}
    (h : Solution nv S M D N s g x) (y : Vec K) (hy : y 0 = 0) :
    ∑ r ∈ Finset.range S, y r * mulVec S M x r + s * ∑ r ∈ Finset.range S, y r * mulVec S D x r +
      g * ∑ r ∈ Finset.range nv, y r * x r + ∑ r ∈ Finset.range S, y r * N r = 0 := by
  have e1 : ∑ r ∈ Finset.range nv, y r * x r = ∑ r ∈ Finset.range S, y r * (if r < nv then x r else 0) := by
    rw [← Finset.sum_subset (Finset.range_subset_range.2 hS) (f := fun r => y r * (if r < nv then x r else 0))]
    · exact Finset.sum_congr rfl fun r hr => by rw [if_pos (Finset.mem_range.1 hr)]
    · intro r _ hr
      rw [if_neg (by simpa using hr), mul_zero]
  rw [e1, Finset.mul_sum, Finset.mul_sum, ← Finset.sum_add_distrib, ← Finset.sum_add_distrib,
    ← Finset.sum_add_distrib]
  refine Finset.sum_eq_zero fun r hr => ?_
  by_cases h0 : r = 0
  · subst h0; simp [hy]
  · have := h.2 r (Nat.pos_of_ne_zero h0) (Finset.mem_range.1 hr)
    split_ifs at this ⊢
    · linear_combination y r * this
    · linear_combination y r * this

/-- two circuits of resistors, capacitors, inductors, couplings and independent sources that differ in their sources
only: the response of either weighed with the sources of the other is the same -/
theorem reciprocity {sqrt : K → Option K} {nv : Nat} {A B : List (Elem K)} {sA sB : Sys K} {DA DB : Mat K}
    {cmin s g : K} (hnv : 0 < nv) (hb : Built sqrt A) (hs : A.filterMap bare = B.filterMap bare)
    (heA : ∀ e ∈ A, NodesLt nv e) (heB : ∀ e ∈ B, NodesLt nv e)
    (hpA : ∀ e ∈ A, TwoPole e) (hpB : ∀ e ∈ B, TwoPole e)
    (hA : generate A nv = .ok sA) (hB : generate B nv = .ok sB)
    (hdA : generateD A nv sA.size cmin = .ok DA) (hdB : generateD B nv sB.size cmin = .ok DB)
    {NA NB : Vec K} {x y : Vec K} (hx : Solution nv sA.size sA.M DA NA s g x)
    (hy : Solution nv sB.size sB.M DB NB s g y) :
    ∑ r ∈ Finset.range sA.size, y r * NA r = ∑ r ∈ Finset.range sB.size, x r * NB r := by
  have zA := (rows_linear heA hpA hA x).1
  have zB := (rows_linear heB hpB hB y).1
  have w1 := solution_weighed (by omega) hx y hy.1
  have w2 := solution_weighed (by omega) hy x hx.1
  rw [static_bil hnv heA hpA hA] at w1
  rw [static_bil hnv heB hpB hB] at w2
  rw [zA] at hdA
  rw [zB] at hdB
  have d1 := dynamic_bil hnv heA hpA hdA y x hy.1 hx.1
  have d2 := dynamic_bil hnv heB hpB hdB x y hx.1 hy.1
  rw [← zA] at d1
  rw [← zB] at d2
  rw [d1] at w1
  rw [d2] at w2
  obtain ⟨f1, f2, f3, f4, -⟩ := forms_bare hs nv y x
  have c1 : (B.map (resForm y x)).sum = (B.map (resForm x y)).sum := by
    rw [show resForm y x = resForm x y from funext (resForm_symm _ _)]
  have c2 : brSum (cross nv y x) B 0 = brSum (cross nv x y) B 0 :=
    brSum_congr _ _ _ _ fun k e => by simp only [cross]; ring
  have c3 : (B.map (capForm y x)).sum = (B.map (capForm x y)).sum := by
    rw [show capForm y x = capForm x y from funext (capForm_symm _ _)]
  have c4 : magForm A nv y x = magForm A nv x y := magForm_symm hb nv y x
  have c5 := (forms_bare hs nv x y).2.2.2.1
  have c6 : ∑ r ∈ Finset.range nv, y r * x r = ∑ r ∈ Finset.range nv, x r * y r := by simp only [mul_comm]
  rw [f1, c1, f2, c2, f3, c3, c4, c5, c6] at w1
  linear_combination w1 - w2

/-- C139 for AC analysis (`s = jω`, `g` the conductance added to the nodes): two circuits of resistors, capacitors,
inductors, couplings and independent sources which differ in their sources only. The phasors of one circuit, weighed
with the sources of the other (`drive`), give the same sum both ways. -/
theorem C139_ac {sqrt : K → Option K} {nv : Nat} {A B : List (Elem K)} {sA sB : Sys K} {DA DB : Mat K}
    {cmin s g : K} (hnv : 0 < nv) (hb : Built sqrt A) (hs : A.filterMap bare = B.filterMap bare)
    (heA : ∀ e ∈ A, NodesLt nv e) (heB : ∀ e ∈ B, NodesLt nv e)
    (hpA : ∀ e ∈ A, TwoPole e) (hpB : ∀ e ∈ B, TwoPole e)
    (hA : generate A nv = .ok sA) (hB : generate B nv = .ok sB)
    (hdA : generateAC A nv sA.size cmin = .ok DA) (hdB : generateAC B nv sB.size cmin = .ok DB)
    {x y : Vec K} (hx : Solution nv sA.size sA.M DA (genNac A nv).2 s g x)
    (hy : Solution nv sB.size sB.M DB (genNac B nv).2 s g y) :
    drive acVal A nv y = drive acVal B nv x := by
  rw [C08_ac_same] at hdA hdB
  have zA := (rows_linear heA hpA hA x).1
  have zB := (rows_linear heB hpB hB y).1
  have := reciprocity hnv hb hs heA heB hpA hpB hA hB hdA hdB hx hy
  rw [zA, zB, drive_ac hnv heA, drive_ac hnv heB] at this
  exact this

/-- C139 for operating points, in which capacitors are open and inductors are short circuits. -/
theorem C139_dc {sqrt : K → Option K} {nv : Nat} {A B : List (Elem K)} {sA sB : Sys K}
    {g : K} (hnv : 0 < nv) (hb : Built sqrt A) (hs : A.filterMap bare = B.filterMap bare)
    (heA : ∀ e ∈ A, NodesLt nv e) (heB : ∀ e ∈ B, NodesLt nv e)
    (hpA : ∀ e ∈ A, TwoPole e) (hpB : ∀ e ∈ B, TwoPole e)
    (hA : generate A nv = .ok sA) (hB : generate B nv = .ok sB)
    {x y : Vec K} (hx : Solution nv sA.size sA.M (fun _ _ => 0) sA.N 0 g x)
    (hy : Solution nv sB.size sB.M (fun _ _ => 0) sB.N 0 g y) :
    drive staticVal A nv y = drive staticVal B nv x := by
  have zA := (rows_linear heA hpA hA x).1
  have zB := (rows_linear heB hpB hB y).1
  have w1 := solution_weighed (by omega) hx y hy.1
  have w2 := solution_weighed (by omega) hy x hx.1
  rw [static_bil hnv heA hpA hA, drive_dc hnv heA hpA hA] at w1
  rw [static_bil hnv heB hpB hB, drive_dc hnv heB hpB hB] at w2
  obtain ⟨f1, f2, -, -, -⟩ := forms_bare hs nv y x
  have c1 : (B.map (resForm y x)).sum = (B.map (resForm x y)).sum := by
    rw [show resForm y x = resForm x y from funext (resForm_symm _ _)]
  have c2 : brSum (cross nv y x) B 0 = brSum (cross nv x y) B 0 :=
    brSum_congr _ _ _ _ fun k e => by simp only [cross]; ring
  have c6 : ∑ r ∈ Finset.range nv, y r * x r = ∑ r ∈ Finset.range nv, x r * y r := by simp only [mul_comm]
  rw [f1, c1, f2, c2, c6] at w1
  linear_combination w1 - w2

/-! ### Sources moved from one port to another -/

/-- no AC value in the circuit -/
def Quiet : Elem K → Prop
  | .V _ _ _ s | .I _ _ _ s => s.ac = none
  | _ => True

theorem brSum_append (f : Nat → Elem K → K) (l l' : List (Elem K)) (k : Nat) :
    brSum f (l ++ l') k = brSum f l k + brSum f l' (k + (vdes l).length) := by
  induction l generalizing k with
  | nil => simp [brSum, vdes_nil]
  | cons e t ih =>
    rw [List.cons_append, brSum, brSum, ih, vdes_cons, ← add_assoc]
    congr 2
    split_ifs
    · rw [List.length_cons]
      omega
    · rfl

theorem drive_quiet {circ : List (Elem K)} (hq : ∀ e ∈ circ, Quiet e) (nv : Nat) (x : Vec K) (l : List (Elem K)) :
    drive acVal (circ ++ l) nv x =
      (l.map (srcNode acVal x)).sum - brSum (srcBranch acVal nv x) l (vdes circ).length := by
  have h1 : (circ.map (srcNode acVal x)).sum = 0 := by
    refine List.sum_eq_zero fun v hv => ?_
    obtain ⟨e, he, rfl⟩ := List.mem_map.1 hv
    have := hq e he
    cases e <;> simp only [srcNode]
    simp only [Quiet] at this
    simp [acVal, this]
  have h2 : brSum (srcBranch acVal nv x) circ 0 = 0 := by
    rw [brSum_map _ (fun _ => 0) _ _ (fun j e hj => ?_) (fun _ _ _ => rfl)]
    · simp
    · have := hq e (List.mem_filter.1 (List.mem_of_getElem? hj)).1
      cases e <;> simp only [srcBranch]
      simp only [Quiet] at this
      simp [acVal, this]
  rw [drive, brSum_append, h2, List.map_append, List.sum_append, h1, zero_add, zero_add, Nat.zero_add]

/-- C139: a current source of 1 A between nodes `a` and `b` causes the same voltage between `c` and `d` as a current
source of 1 A between `c` and `d` causes between `a` and `b`, at any frequency. -/
theorem C139_transfer_impedance {sqrt : K → Option K} {nv : Nat} {circ : List (Elem K)} {ida idb : String}
    {a b c d : Nat} {srcA srcB : Src K} (h1 : srcA.ac = some 1) (h2 : srcB.ac = some 1) {A B : List (Elem K)} (hA' : A = circ ++ [.I ida a b srcA])
    (hB' : B = circ ++ [.I idb c d srcB]) {sA sB : Sys K} {DA DB : Mat K}
    {cmin s g : K} (hnv : 0 < nv) (hb : Built sqrt circ) (hq : ∀ e ∈ circ, Quiet e)
    (heA : ∀ e ∈ A, NodesLt nv e) (heB : ∀ e ∈ B, NodesLt nv e)
    (hp : ∀ e ∈ circ, TwoPole e)
    (hA : generate A nv = .ok sA) (hB : generate B nv = .ok sB)
    (hdA : generateAC A nv sA.size cmin = .ok DA) (hdB : generateAC B nv sB.size cmin = .ok DB)
    {x y : Vec K} (hx : Solution nv sA.size sA.M DA (genNac A nv).2 s g x)
    (hy : Solution nv sB.size sB.M DB (genNac B nv).2 s g y) :
    x c - x d = y a - y b := by
  subst hA' hB'
  have hbA : Built sqrt (circ ++ [.I ida a b srcA]) :=
    .add hb (by simp) (by simp) (by simp [Elem.vde])
  have tp : ∀ id n1 n2 (s : Src K), ∀ e ∈ circ ++ [.I id n1 n2 s], TwoPole e := by
    intro id n1 n2 s e he
    rcases List.mem_append.1 he with h | h
    · exact hp e h
    · simp only [List.mem_singleton] at h; subst h; trivial
  have key := C139_ac hnv hbA (by rw [List.filterMap_append, List.filterMap_append]; rfl) heA heB
    (tp _ _ _ _) (tp _ _ _ _) hA hB hdA hdB hx hy
  rw [drive_quiet hq, drive_quiet hq] at key
  simp [srcNode, brSum, Elem.vde, acVal, h1, h2] at key
  exact key.symm

/-- C139: with voltage sources at two ports, 1 V at the first port causes the same current in the source of the second
(which has 0 V) as 1 V at the second port causes in the source of the first. -/
theorem C139_transfer_admittance {sqrt : K → Option K} {nv : Nat} {circ : List (Elem K)} {ida idb : String}
    {a b c d : Nat} {one zero one' zero' : Src K} (h1 : one.ac = some 1)
    (h2 : zero.ac = some 0) (h3 : one'.ac = some 1) (h4 : zero'.ac = some 0) {A B : List (Elem K)}
    (hA' : A = circ ++ [.V ida a b one, .V idb c d zero'])
    (hB' : B = circ ++ [.V ida a b zero, .V idb c d one']) {sA sB : Sys K} {DA DB : Mat K}
    {cmin s g : K} (hnv : 0 < nv) (hb : Built sqrt A) (hq : ∀ e ∈ circ, Quiet e)
    (heA : ∀ e ∈ A, NodesLt nv e) (heB : ∀ e ∈ B, NodesLt nv e)
    (hpA : ∀ e ∈ A, TwoPole e) (hpB : ∀ e ∈ B, TwoPole e)
    (hA : generate A nv = .ok sA) (hB : generate B nv = .ok sB)
    (hdA : generateAC A nv sA.size cmin = .ok DA) (hdB : generateAC B nv sB.size cmin = .ok DB)
    {x y : Vec K} (hx : Solution nv sA.size sA.M DA (genNac A nv).2 s g x)
    (hy : Solution nv sB.size sB.M DB (genNac B nv).2 s g y) :
    x (nv + ((vdes circ).length + 1)) = y (nv + (vdes circ).length) := by
  subst hA' hB'
  have key := C139_ac hnv hb (by rw [List.filterMap_append, List.filterMap_append]; rfl) heA heB hpA hpB hA hB hdA hdB hx hy
  rw [drive_quiet hq, drive_quiet hq] at key
  simp [srcNode, srcBranch, brSum, Elem.vde, acVal, h1, h2, h3, h4] at key
  exact key.symm

/-! ### `ac_analysis` -/

/-- the reduced matrices of such a circuit are symmetric -/
theorem symmetric {sqrt : K → Option K} {nv m : Nat} {circ : List (Elem K)} {s : Sys K} {D : Mat K} {cmin : K}
    (hnv : 0 < nv) (hb : Built sqrt circ) (he : ∀ e ∈ circ, NodesLt nv e) (hp : ∀ e ∈ circ, TwoPole e)
    (h : generate circ nv = .ok s) (hm : s.size = m + 1) (hd : generateAC circ nv s.size cmin = .ok D) :
    (reduce m s.M).transpose = reduce m s.M ∧ (reduce m D).transpose = reduce m D := by
  rw [C08_ac_same] at hd
  have hz := (rows_linear he hp h fun _ => 0).1
  have pick : ∀ (M : Mat K) (i j : Fin m), ∑ r ∈ Finset.range s.size, Rlc.ext (Pi.single i (1 : K)) r *
      mulVec s.size M (Rlc.ext (Pi.single j (1 : K))) r = reduce m M i j := by
    intro M i j
    rw [hm, ← dot_reduce (Pi.single i 1) (Matrix.mulVec (reduce m M) (Pi.single j 1)) _ fun k => ?_]
    · simp
    · rw [reduce_row]
  constructor <;> ext i j <;> rw [Matrix.transpose_apply, ← pick, ← pick]
  · rw [static_bil hnv he hp h, static_bil hnv he hp h]
    congr 1
    · congr 2
      exact funext (resForm_symm _ _)
    · exact brSum_congr _ _ _ _ fun k e => by simp only [cross]; ring
  · rw [hz] at hd ⊢
    rw [dynamic_bil hnv he hp hd _ _ rfl rfl, dynamic_bil hnv he hp hd _ _ rfl rfl, magForm_symm hb]
    congr 2
    · congr 2
      exact funext (capForm_symm _ _)
    · simp only [mul_comm]

open Matrix Verif.Ac in
/-- C139 for the results of `ac_analysis` (linear circuits, complex sources): at every frequency the sum of the
response to one set of sources times the other set is the same both ways. -/
theorem C139_ac_results {sqrt : ℝ → Option ℝ} {nv m : Nat} {circ : List (Elem ℝ)} {s : Sys ℝ} {D : Mat ℝ} {cmin : ℝ}
    (hnv : 0 < nv) (hb : Built sqrt circ) (he : ∀ e ∈ circ, NodesLt nv e) (hp : ∀ e ∈ circ, TwoPole e)
    (h : generate circ nv = .ok s) (hm : s.size = m + 1) (hd : generateAC circ nv s.size cmin = .ok D)
    (gmin : ℝ) (N1 N2 : Fin m → ℂ) {o : AOpts} (ho : Default o) (start stop : ℝ) (h0 : start ≠ 0)
    (hs : start ≤ stop) (N : Nat) (hN : 2 ≤ N) (x1 x2 : Fin m → ℂ) {p1 p2 : List (ℝ × (Fin m → ℂ))}
    (r1 : acAnalysis o ⟨reduce m s.M, reduce m D, 0, N1, nv - 1, gmin⟩ .lin start stop N x1 = .ok (some p1))
    (r2 : acAnalysis o ⟨reduce m s.M, reduce m D, 0, N2, nv - 1, gmin⟩ .lin start stop N x2 = .ok (some p2))
    (i : Nat) (a b : ℝ × (Fin m → ℂ)) (ha : p1[i]? = some a) (hb' : p2[i]? = some b) :
    a.1 = b.1 ∧ a.2 ⬝ᵥ N2 = b.2 ⬝ᵥ N1 := by
  obtain ⟨sy1, sy2⟩ := symmetric hnv hb he hp h hm hd
  have core : ∀ (A : Matrix (Fin m) (Fin m) ℂ) (x y : Fin m → ℂ), A.transpose = A → A *ᵥ x + N1 = 0 →
      A *ᵥ y + N2 = 0 → x ⬝ᵥ N2 = y ⬝ᵥ N1 := by
    intro A x y hA e1 e2
    have e1' : N1 = -(A *ᵥ x) := by rw [eq_neg_iff_add_eq_zero, add_comm]; exact e1
    have e2' : N2 = -(A *ᵥ y) := by rw [eq_neg_iff_add_eq_zero, add_comm]; exact e2
    rw [e1', e2', dotProduct_neg, dotProduct_neg, dotProduct_mulVec, ← mulVec_transpose, hA, dotProduct_comm]
  rcases C120_linear ho ⟨reduce m s.M, reduce m D, 0, N1, nv - 1, gmin⟩ start stop h0 hs N hN x1 with
    ⟨e, -⟩ | ⟨q1, e1, -, f1, g1⟩
  · rw [r1] at e; cases e
  rcases C120_linear ho ⟨reduce m s.M, reduce m D, 0, N2, nv - 1, gmin⟩ start stop h0 hs N hN x2 with
    ⟨e, -⟩ | ⟨q2, e2, -, f2, g2⟩
  · rw [r2] at e; cases e
  rw [r1] at e1
  rw [r2] at e2
  cases e1
  cases e2
  have k1 := g1 i a ha
  have k2 := g2 i b hb'
  refine ⟨?_, ?_⟩
  · have t1 := congrArg (·[i]?) f1
    have t2 := congrArg (·[i]?) f2
    simp only [List.getElem?_map, ha, hb', Option.map_some] at t1 t2
    rw [← t2] at t1
    exact Option.some.inj t1
  · have hsym : ∀ w g, (Y (⟨reduce m s.M, reduce m D, 0, N1, nv - 1, gmin⟩ : AcIn m) w g).transpose =
        Y (⟨reduce m s.M, reduce m D, 0, N1, nv - 1, gmin⟩ : AcIn m) w g := by
      intro w g
      ext i j
      have t1 := congrFun (congrFun sy1 i) j
      have t2 := congrFun (congrFun sy2 i) j
      simp only [Matrix.transpose_apply] at t1 t2
      simp only [Y, Matrix.transpose_apply, Matrix.of_apply, Matrix.zero_apply, t1, t2]
      congr 1
      by_cases hij : i = j
      · subst hij; rfl
      · rw [if_neg (fun c => hij c.1.symm), if_neg (fun c => hij c.1)]
    have hsame : ∀ w g, Y (⟨reduce m s.M, reduce m D, 0, N2, nv - 1, gmin⟩ : AcIn m) w g =
        Y (⟨reduce m s.M, reduce m D, 0, N1, nv - 1, gmin⟩ : AcIn m) w g := fun _ _ => rfl
    unfold Solves at k1 k2
    simp only [hsame] at k2
    rcases k1 with ⟨d1, k1⟩ | ⟨d1, -, k1⟩ <;> rcases k2 with ⟨d2, k2⟩ | ⟨d2, -, k2⟩
    · exact core _ _ _ (hsym _ _) k1 k2
    · exact absurd d2 d1
    · exact absurd d1 d2
    · exact core _ _ _ (hsym _ _) k1 k2

/-! ### Examples -/

/-- a filter with two coupled inductors: the source is put between 1 and 0, and then between 3 and 2 -/
def filter : List (Elem ℚ) :=
  [.R "R1" 1 0 2, .C "C1" 1 2 3 none, .L "L1" 2 0 4 none [⟨"K1", "L1", "L2", -1 / 2, -3⟩],
    .L "L2" 3 0 9 none [⟨"K1", "L1", "L2", -1 / 2, -3⟩], .R "R2" 3 2 5, .K ⟨"K1", "L1", "L2", -1 / 2, -3⟩]

def filterA : List (Elem ℚ) := filter ++ [.I "I1" 1 0 { dc := some 0, ac := some 1 }]
def filterB : List (Elem ℚ) := filter ++ [.I "I2" 3 2 { dc := some 0, ac := some 1 }]

theorem filter_made : addCoupling sqrtQ
    [.R "R1" 1 0 2, .C "C1" 1 2 3 none, .L "L1" 2 0 4 none [], .L "L2" 3 0 9 none [], .R "R2" 3 2 5]
      "K1" "L1" "L2" (-1 / 2) = .ok filter := by
  have hs : sqrtQ (4 * 9) = some 6 := by decide +kernel
  simp [addCoupling, findPair, indValue, hs, attach, List.modify, List.modifyTailIdx, List.modifyTailIdx.go,
    filter, List.modifyHead]
  norm_num

example : (∀ e ∈ filterA, NodesLt 4 e) ∧ (∀ e ∈ filterB, NodesLt 4 e) ∧ (∀ e ∈ filter, TwoPole e) ∧
    (∀ e ∈ filter, Quiet e) := by
  simp [filterA, filterB, filter, NodesLt, TwoPole, Quiet]

/-- the matrices of both circuits exist -/
example : (generate filterA 4).isOk = true ∧ (generate filterB 4).isOk = true ∧
    (generateAC filterA 4 6 0).isOk = true ∧ (generateAC filterB 4 6 0).isOk = true := by decide +kernel

/-- the responses, with `s = 1` in place of `jω` -/
def respA : Vec ℚ := fun r => [0, -110 / 103, -94 / 103, -24 / 103, -34 / 103, -14 / 103].getD r 0
def respB : Vec ℚ := fun r => [0, 70 / 103, 245 / 309, -275 / 103, -10 / 309, -95 / 309].getD r 0

example :
    let sA := okOr ⟨0, fun _ _ => 0, fun _ => 0⟩ (generate filterA 4)
    let sB := okOr ⟨0, fun _ _ => 0, fun _ => 0⟩ (generate filterB 4)
    let DA := okOr (fun _ _ => 0) (generateAC filterA 4 6 0)
    let DB := okOr (fun _ _ => 0) (generateAC filterB 4 6 0)
    sA.size = 6 ∧ sB.size = 6 ∧ respA 0 = 0 ∧ respB 0 = 0 ∧
      (∀ r < 6, 0 < r → mulVec 6 sA.M respA r + 1 * mulVec 6 DA respA r + (genNac filterA 4).2 r = 0) ∧
      (∀ r < 6, 0 < r → mulVec 6 sB.M respB r + 1 * mulVec 6 DB respB r + (genNac filterB 4).2 r = 0) ∧
      respA 3 - respA 2 = 70 / 103 ∧ respB 1 - respB 0 = 70 / 103 := by
  decide +kernel

/-- with a controlled source the theorem fails: an amplifier has no response backwards -/
example :
    let amp : List (Elem ℚ) := [.R "R1" 1 0 1, .R "R2" 2 0 1, .G "G1" 2 0 1 0 5]
    let sys := fun l => okOr ⟨0, fun _ _ => 0, fun _ => 0⟩ (generate l 3)
    let a := sys (amp ++ [.I "I1" 1 0 { dc := some 1 }])
    let b := sys (amp ++ [.I "I1" 2 0 { dc := some 1 }])
    let x : Vec ℚ := fun r => [0, -1, 5].getD r 0
    let y : Vec ℚ := fun r => [0, 0, -1].getD r 0
    (∀ r < 3, mulVec 3 a.M x r + a.N r = 0) ∧ (∀ r < 3, mulVec 3 b.M y r + b.N r = 0) ∧ x 2 ≠ y 1 := by
  decide +kernel

end Verif.Recip
