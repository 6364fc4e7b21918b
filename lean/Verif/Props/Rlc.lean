import Verif.Props.Tran
import Verif.Props.Dyn
import Mathlib.Tactic.Positivity

/-!
C124 for circuits: the matrices assembled for resistors, capacitors and inductors, coupled or not, are those
of a passive network, so the stored energy never increases along a transient.
-/

namespace Verif.Rlc
open Verif.Circuit Verif.Mna Verif.Dyn

variable {K : Type} [Field K]

/-- unknowns with the reference put back -/
def ext {m : Nat} (x : Fin m → K) : Vec K
  | 0 => 0
  | k + 1 => if h : k < m then x ⟨k, h⟩ else 0

/-- `mna[1:, 1:]`, transient.py:228-232 -/
def reduce (m : Nat) (M : Mat K) : Matrix (Fin m) (Fin m) K := fun i j => M (i.val + 1) (j.val + 1)

/-- `N[1:]` -/
def reduceV (m : Nat) (N : Vec K) : Fin m → K := fun i => N (i.val + 1)

theorem reduce_row {m : Nat} (M : Mat K) (x : Fin m → K) (i : Fin m) :
    Matrix.mulVec (reduce m M) x i = mulVec (m + 1) M (ext x) (i.val + 1) := by
  unfold mulVec Matrix.mulVec dotProduct
  rw [Finset.sum_range_succ', Finset.sum_fin_eq_sum_range]
  simp only [ext, mul_zero, add_zero, reduce]
  refine Finset.sum_congr rfl fun j hj => ?_
  rw [dif_pos (Finset.mem_range.1 hj), dif_pos (Finset.mem_range.1 hj)]

theorem dot_reduce {m : Nat} (x w : Fin m → K) (W : Vec K) (h : ∀ i : Fin m, w i = W (i.val + 1)) :
    dotProduct x w = ∑ r ∈ Finset.range (m + 1), ext x r * W r := by
  unfold dotProduct
  rw [Finset.sum_range_succ', Finset.sum_fin_eq_sum_range]
  simp only [ext, zero_mul, add_zero]
  refine Finset.sum_congr rfl fun j hj => ?_
  rw [dif_pos (Finset.mem_range.1 hj), dif_pos (Finset.mem_range.1 hj), h]

/-- the sign of the branch equations turned round -/
def sgn (nv : Nat) (r : Nat) : K := if r < nv then 1 else -1

/-- node rows as they are, branch rows with the opposite sign -/
def signs (m nv : Nat) : Matrix (Fin m) (Fin m) K := Matrix.diagonal fun i => sgn nv (i.val + 1)

theorem form {m nv b : Nat} (hm : m + 1 = nv + b) (M : Mat K) (x y : Fin m → K) :
    dotProduct x (Matrix.mulVec (signs m nv * reduce m M) y) =
      ∑ r ∈ Finset.range nv, ext x r * mulVec (m + 1) M (ext y) r -
        ∑ j ∈ Finset.range b, ext x (nv + j) * mulVec (m + 1) M (ext y) (nv + j) := by
  rw [dot_reduce x _ (fun r => sgn nv r * mulVec (m + 1) M (ext y) r), hm, Finset.sum_range_add, sub_eq_add_neg,
    ← Finset.sum_neg_distrib]
  · congr 1 <;> refine Finset.sum_congr rfl fun j hj => ?_
    · rw [sgn, if_pos (Finset.mem_range.1 hj), one_mul]
    · rw [sgn, if_neg (by omega)]; ring
  · intro i
    rw [← Matrix.mulVec_mulVec, signs, Matrix.mulVec_diagonal, reduce_row]

/-- sum over the voltage-defined elements, numbered from `k` -/
def brSum (f : Nat → Elem K → K) : List (Elem K) → Nat → K
  | [], _ => 0
  | e :: t, k => (if e.vde then f k e else 0) + brSum f t (k + if e.vde then 1 else 0)

theorem brSum_eq (f : Nat → Elem K → K) (g : Nat → K) (l : List (Elem K)) (k : Nat)
    (h : ∀ j e, (vdes l)[j]? = some e → g (k + j) = f (k + j) e) :
    brSum f l k = ∑ j ∈ Finset.range (vdes l).length, g (k + j) := by
  induction l generalizing k with
  | nil => simp [brSum, vdes_nil]
  | cons e t ih =>
    rw [vdes_cons] at h ⊢
    by_cases hv : e.vde = true
    · simp only [hv, if_true, brSum] at h ⊢
      rw [List.length_cons, Finset.sum_range_succ', add_comm, h 0 e rfl, Nat.add_zero]
      congr 1
      rw [ih (k + 1)]
      · exact Finset.sum_congr rfl fun j _ => by congr 1; omega
      · intro j e' hj
        have := h (j + 1) e' (by simpa using hj)
        rwa [show k + 1 + j = k + (j + 1) by omega]
    · simp only [hv, if_false, brSum, zero_add, Nat.add_zero, Bool.false_eq_true] at h ⊢
      exact ih k h

/-! ### The forms of the assembled matrices -/

/-- resistor, capacitor, inductor or coupling -/
def Passive : Elem K → Prop
  | .R .. | .C .. | .K _ => True
  | .L _ n1 n2 _ _ _ => n1 ≠ n2
  | _ => False

/-- power taken up by the resistors -/
def lost (x : Vec K) : Elem K → K
  | .R _ n1 n2 r => (x n1 - x n2) * (x n1 - x n2) / r
  | _ => 0

/-- twice the energy of a capacitor, as a bilinear form -/
def capForm (x y : Vec K) : Elem K → K
  | .C _ n1 n2 c _ => c * (x n1 - x n2) * (y n1 - y n2)
  | _ => 0

/-- the same for an inductor with branch number `k` -/
def indForm (nv : Nat) (x y : Vec K) (k : Nat) : Elem K → K
  | .L _ _ _ l _ _ => l * x (nv + k) * y (nv + k)
  | _ => 0

/-- the mutual terms of an inductor with branch number `k` -/
def mutForm (circ : List (Elem K)) (nv : Nat) (x y : Vec K) (k : Nat) : Elem K → K
  | .L id _ _ _ _ coup => x (nv + k) * mutualTerm circ nv y id coup
  | _ => 0

/-- twice the magnetic energy, as a bilinear form -/
def magForm (circ : List (Elem K)) (nv : Nat) (x y : Vec K) : K :=
  brSum (indForm nv x y) circ 0 + brSum (mutForm circ nv x y) circ 0

theorem brSum_add (f g : Nat → Elem K → K) (l : List (Elem K)) (k : Nat) :
    brSum (fun j e => f j e + g j e) l k = brSum f l k + brSum g l k := by
  induction l generalizing k with
  | nil => simp [brSum]
  | cons e t ih =>
    simp only [brSum, ih]
    split <;> ring

theorem passive_static {circ : List (Elem K)} (hp : ∀ e ∈ circ, Passive e) :
    (∀ e ∈ circ, Proper e) ∧ (∀ e ∈ circ, Mna.Plain e) := by
  constructor <;> intro e he <;> have := hp e he <;> cases e <;> simp_all [Passive, Proper, Mna.Plain]

theorem kcl_lost {circ : List (Elem K)} {nv : Nat} (hnv : 0 < nv) (x : Vec K) (val : Src K → K)
    (l : List (Elem K)) (k : Nat) (hp : ∀ e ∈ l, Passive e) (he : ∀ e ∈ l, NodesLt nv e) :
    ∑ r ∈ Finset.range nv, x r * kcl circ nv x val l k r =
      (l.map (lost x)).sum + brSum (fun j e => x (nv + j) * law circ nv x val e) l k := by
  induction l generalizing k with
  | nil => simp [kcl, brSum]
  | cons e t ih =>
    have h1 := hp e (List.mem_cons_self ..)
    have h2 := (he e (List.mem_cons_self ..)).term_lt' hnv
    simp only [kcl, mul_add, Finset.sum_add_distrib, brSum, List.map_cons, List.sum_cons]
    rw [ih _ (fun e' h' => hp e' (List.mem_cons_of_mem _ h')) (fun e' h' => he e' (List.mem_cons_of_mem _ h')),
      sum_inj x _ _ _ h2.1 h2.2]
    cases e <;> simp only [Passive] at h1 <;> simp [lost, current, term, Elem.vde, law] <;> ring

theorem kcl_zero {circ : List (Elem K)} {nv : Nat} (val : Src K → K) (l : List (Elem K)) (k r : Nat)
    (hp : ∀ e ∈ l, Passive e) : kcl circ nv (fun _ => 0) val l k r = 0 := by
  induction l generalizing k with
  | nil => rfl
  | cons e t ih =>
    rw [kcl, ih _ fun e' h' => hp e' (List.mem_cons_of_mem _ h')]
    have h1 := hp e (List.mem_cons_self ..)
    cases e <;> simp only [Passive] at h1 <;> simp [current, inj]

/-- such a circuit has no constant terms -/
theorem no_sources {nv : Nat} {circ : List (Elem K)} {s : Sys K} (he : ∀ e ∈ circ, NodesLt nv e)
    (hp : ∀ e ∈ circ, Passive e) (h : generate circ nv = .ok s) :
    s.size = nv + (vdes circ).length ∧ ∀ r < s.size, s.N r = 0 := by
  obtain ⟨h1, h2⟩ := passive_static hp
  obtain ⟨hz, hn, hb⟩ := C07_equations_are_circuit_laws_partial he h1 h2 h (fun _ => 0)
  refine ⟨hz, fun r hr => ?_⟩
  have h0 : ∀ r, mulVec s.size s.M (fun _ => (0 : K)) r = 0 := fun r => by simp [mulVec]
  by_cases hlt : r < nv
  · have := hn r hlt
    rwa [h0, zero_add, kcl_zero _ _ _ _ hp] at this
  · obtain ⟨k, rfl⟩ : ∃ k, r = nv + k := ⟨r - nv, by omega⟩
    have hk : k < (vdes circ).length := by omega
    have := hb k _ (List.getElem?_eq_getElem hk)
    rw [h0, zero_add] at this
    rw [this]
    have hm : (vdes circ)[k] ∈ circ := (List.mem_filter.1 (List.getElem_mem hk)).1
    have h1 := hp _ hm
    revert h1
    cases (vdes circ)[k] <;> simp [Passive, law]

/-- the quadratic form of the reduced matrix is the power taken up by the resistors: the inductors cancel -/
theorem static_form {nv m : Nat} {circ : List (Elem K)} {s : Sys K} (hnv : 0 < nv)
    (he : ∀ e ∈ circ, NodesLt nv e) (hp : ∀ e ∈ circ, Passive e) (h : generate circ nv = .ok s)
    (hm : s.size = m + 1) (x : Fin m → K) :
    dotProduct x (Matrix.mulVec (signs m nv * reduce m s.M) x) = (circ.map (lost (ext x))).sum := by
  obtain ⟨h1, h2⟩ := passive_static hp
  obtain ⟨hz, hn, hb⟩ := C07_equations_are_circuit_laws_partial he h1 h2 h (ext x)
  obtain ⟨-, h0⟩ := no_sources he hp h
  rw [form (nv := nv) (b := (vdes circ).length) (by omega)]
  have e1 : ∑ r ∈ Finset.range nv, ext x r * mulVec (m + 1) s.M (ext x) r =
      ∑ r ∈ Finset.range nv, ext x r * kcl circ nv (ext x) staticVal circ 0 r := by
    refine Finset.sum_congr rfl fun r hr => ?_
    have hr := Finset.mem_range.1 hr
    rw [← hn r hr, h0 r (by omega), add_zero, hm]
  rw [e1, kcl_lost hnv _ _ _ _ hp he, brSum_eq _ (fun j => ext x (nv + j) * mulVec (m + 1) s.M (ext x) (nv + j))]
  · simp
  · intro j e hj
    have hlt := (List.getElem?_eq_some_iff.mp hj).1
    have := hb j e hj
    rw [h0 _ (by omega), add_zero, hm] at this
    simp only [Nat.zero_add, this]

/-- the bilinear form of the reduced dynamic matrix -/
theorem dynamic_form {nv m : Nat} {circ : List (Elem K)} {cmin : K} {D : Mat K} (hnv : 0 < nv)
    (he : ∀ e ∈ circ, NodesLt nv e) (hp : ∀ e ∈ circ, Passive e)
    (hm : m + 1 = nv + (vdes circ).length)
    (h : generateD circ nv (m + 1) cmin = .ok D) (x y : Fin m → K) :
    dotProduct x (Matrix.mulVec (signs m nv * reduce m D) y) =
      (circ.map (capForm (ext x) (ext y))).sum + cmin * ∑ r ∈ Finset.range nv, ext x r * ext y r +
        magForm circ nv (ext x) (ext y) := by
  rw [form hm]
  rw [hm] at h ⊢
  have e1 : ∀ l : List (Elem K), (∀ e ∈ l, NodesLt nv e) → ∑ r ∈ Finset.range nv, ext x r *
      (l.map (fun e => inj (term e).1 (term e).2 (capCurrent (ext y) e) r)).sum =
        (l.map (capForm (ext x) (ext y))).sum := by
    intro l
    induction l with
    | nil => simp
    | cons e t ih =>
      intro hl
      have h2 := (hl e (List.mem_cons_self ..)).term_lt' hnv
      simp only [List.map_cons, List.sum_cons, mul_add, Finset.sum_add_distrib]
      rw [ih fun e' h' => hl e' (List.mem_cons_of_mem _ h'), sum_inj _ _ _ _ h2.1 h2.2]
      congr 1
      cases e <;> simp [capCurrent, capForm, term]
      ring
  have e2 : ∑ r ∈ Finset.range nv, ext x r * mulVec (nv + (vdes circ).length) D (ext y) r =
      (circ.map (capForm (ext x) (ext y))).sum + cmin * ∑ r ∈ Finset.range nv, ext x r * ext y r := by
    rw [← e1 circ he, Finset.mul_sum, ← Finset.sum_add_distrib]
    refine Finset.sum_congr rfl fun r hr => ?_
    have hr := Finset.mem_range.1 hr
    cases r with
    | zero => simp [ext]
    | succ r =>
      rw [C08_node_rows he h (ext y) rfl (r + 1) (by omega) hr]
      ring
  rw [e2, sub_eq_add_neg, ← Finset.sum_neg_distrib]
  congr 1
  rw [magForm, ← brSum_add,
    brSum_eq _ (fun j => -(ext x (nv + j) * mulVec (nv + (vdes circ).length) D (ext y) (nv + j)))]
  · simp
  · intro j e hj
    have hin : e ∈ circ := (List.mem_filter.1 (List.mem_of_getElem? hj)).1
    have hv : e.vde = true := (List.mem_filter.1 (List.mem_of_getElem? hj)).2
    have h1 := hp e hin
    rw [Nat.zero_add, C08_branch_rows hnv he h (ext y) rfl j e hj]
    cases e <;> simp only [Passive] at h1 <;> simp only [Elem.vde, Bool.false_eq_true] at hv
    simp only [flux, indForm, mutForm]
    ring


/-! ### Coupled inductors -/

theorem brSum_map (f : Nat → Elem K → K) (g : Elem K → K) (l : List (Elem K)) (k : Nat)
    (h : ∀ j e, (vdes l)[j]? = some e → f (k + j) e = g e) (h0 : ∀ e ∈ l, e.vde = false → g e = 0) :
    brSum f l k = (l.map g).sum := by
  induction l generalizing k with
  | nil => rfl
  | cons e t ih =>
    rw [vdes_cons] at h
    rw [List.map_cons, List.sum_cons, brSum]
    by_cases hv : e.vde = true
    · simp only [hv, if_true] at h ⊢
      rw [ih (k + 1)]
      · rw [← h 0 e rfl]; simp
      · intro j e' hj
        have := h (j + 1) e' (by simpa using hj)
        rwa [show k + 1 + j = k + (j + 1) by omega]
      · exact fun e' h' => h0 e' (List.mem_cons_of_mem _ h')
    · simp only [hv, if_false, Bool.false_eq_true, Nat.add_zero] at h ⊢
      rw [ih k (fun j e' hj => h j e' hj) fun e' h' => h0 e' (List.mem_cons_of_mem _ h'),
        h0 e (List.mem_cons_self ..) (by simpa using hv)]

/-- the other inductor of a coupling -/
def partner (id : String) (cd : Coupling K) : String := if upper id = upper cd.L1 then cd.L2 else cd.L1

/-- sum over the couplings of an inductor -/
def coupSum (c : Coupling K → K) (F G : String → K) : Elem K → K
  | .L id _ _ _ _ coup => (coup.map fun cd => c cd * F id * G (partner id cd)).sum
  | _ => 0

theorem sum_unique {c : List (Elem K)} (hu : UniqueVde c) {e0 : Elem K} (hm : e0 ∈ c) (hv : e0.vde = true) (v : K) :
    (c.map fun e => if e.vde = true ∧ e.id = e0.id then v else 0).sum = v := by
  induction c with
  | nil => cases hm
  | cons a t ih =>
    have hu' := hu
    unfold UniqueVde at hu
    rw [vdes_cons] at hu
    rw [List.map_cons, List.sum_cons]
    rcases List.mem_cons.1 hm with rfl | hmt
    · simp only [hv, if_true, List.map_cons, List.nodup_cons] at hu
      rw [if_pos ⟨hv, rfl⟩]
      have : (t.map fun e => if e.vde = true ∧ e.id = e0.id then v else 0).sum = 0 := by
        refine List.sum_eq_zero fun y hy => ?_
        obtain ⟨e, he, rfl⟩ := List.mem_map.1 hy
        refine if_neg fun h => hu.1 ?_
        exact List.mem_map.2 ⟨e, List.mem_filter.2 ⟨he, h.1⟩, by rw [h.2]⟩
      rw [this, add_zero]
    · have hut : UniqueVde t := by
        unfold UniqueVde
        split at hu
        · exact (List.nodup_cons.1 hu).2
        · exact hu
      rw [ih hut hmt, if_neg, zero_add]
      rintro ⟨h1, h2⟩
      simp only [h1, if_true, List.map_cons, List.nodup_cons] at hu
      exact hu.1 (List.mem_map.2 ⟨e0, List.mem_filter.2 ⟨hmt, hv⟩, by rw [h2]⟩)

/-- with couplings made through the API, such a sum is symmetric -/
theorem coupSum_symm {sqrt : K → Option K} {circ : List (Elem K)} (hb : Built sqrt circ) (c : Coupling K → K)
    (F G : String → K) : (circ.map (coupSum c F G)).sum = (circ.map (coupSum c G F)).sum := by
  induction hb with
  | nil => rfl
  | @add l e _ hk hl hf ih =>
    rw [List.map_append, List.map_append, List.sum_append, List.sum_append, ih]
    congr 1
    cases e with
    | L id n1 n2 v ic coup => simp [hl id n1 n2 v ic coup rfl, coupSum]
    | _ => simp [coupSum]
  | @couple l l' id L1 L2 k hb h ih =>
    have hu := hb.inv.uniq
    obtain ⟨q, hne, ⟨e1, m1, e2, m2, i1, i2, -⟩, rfl⟩ := addCoupling_map_value hu h
    generalize hcd : (⟨id, L1, L2, k, q * k⟩ : Coupling K) = cd
    have hL1 : cd.L1 = L1 := by rw [← hcd]
    have hL2 : cd.L2 = L2 := by rw [← hcd]
    have hup : upper L1 ≠ upper L2 := by
      intro hup
      obtain ⟨i, hi⟩ := List.getElem?_of_mem m1
      obtain ⟨j, hj⟩ := List.getElem?_of_mem m2
      have := unique_pos hu hi hj i1.vde.1 i2.vde.1 (by rw [i1.vde.2, i2.vde.2, hup])
      subst this
      rw [hi] at hj
      cases hj
      exact hne (i1.vde.2.symm.trans i2.vde.2)
    have isL : ∀ e ∈ l, e.vde = true → e.id = L1 ∨ e.id = L2 → ∃ name, IsInd e name := by
      intro e he hv hid
      obtain ⟨i, hi⟩ := List.getElem?_of_mem he
      rcases hid with hid | hid
      · obtain ⟨j, hj⟩ := List.getElem?_of_mem m1
        have := unique_pos hu hi hj hv i1.vde.1 (by rw [i1.vde.2, hid])
        subst this
        rw [hi] at hj
        cases hj
        exact ⟨_, i1⟩
      · obtain ⟨j, hj⟩ := List.getElem?_of_mem m2
        have := unique_pos hu hi hj hv i2.vde.1 (by rw [i2.vde.2, hid])
        subst this
        rw [hi] at hj
        cases hj
        exact ⟨_, i2⟩
    have step : ∀ F G : String → K, ((l.map (attachIf cd) ++ [Elem.K cd]).map (coupSum c F G)).sum =
        (l.map (coupSum c F G)).sum + c cd * F L1 * G L2 + c cd * F L2 * G L1 := by
      intro F G
      have hK : coupSum c F G (.K cd) = 0 := rfl
      rw [List.map_append, List.sum_append, List.map_map]
      simp only [List.map_cons, List.map_nil, List.sum_cons, List.sum_nil, hK, add_zero]
      have s1 := sum_unique hu m1 i1.vde.1 (c cd * F L1 * G L2)
      have s2 := sum_unique hu m2 i2.vde.1 (c cd * F L2 * G L1)
      rw [i1.vde.2] at s1
      rw [i2.vde.2] at s2
      conv_rhs => rw [← s1, ← s2]
      rw [← List.sum_map_add, ← List.sum_map_add]
      congr 1
      refine List.map_congr_left fun e he => ?_
      simp only [Function.comp_apply]
      by_cases hc : e.vde = true ∧ (e.id = L1 ∨ e.id = L2)
      · obtain ⟨name, hi⟩ := isL e he hc.1 hc.2
        obtain ⟨n1, n2, v, ic, coup, rfl⟩ := hi
        simp only [attachIf, hL1, hL2, if_pos hc, attach, coupSum, List.map_append, List.sum_append, List.map_cons,
          List.map_nil, List.sum_cons, List.sum_nil, add_zero]
        have hid : name = L1 ∨ name = L2 := hc.2
        simp only [Elem.vde, Elem.id, true_and]
        rcases hid with rfl | rfl
        · rw [if_pos rfl, if_neg hne, partner, hL1, hL2, if_pos rfl, add_zero]
        · rw [if_pos rfl, if_neg (Ne.symm hne), partner, hL1, hL2, if_neg (Ne.symm hup), add_zero]
      · have h1 : ¬ (e.vde = true ∧ e.id = L1) := fun h => hc ⟨h.1, .inl h.2⟩
        have h2 : ¬ (e.vde = true ∧ e.id = L2) := fun h => hc ⟨h.1, .inr h.2⟩
        rw [attachIf, hL1, hL2, if_neg hc, if_neg h1, if_neg h2, add_zero, add_zero]
    rw [step, step, ih]
    ring

/-- the vector by names of branches -/
def byName (circ : List (Elem K)) (nv : Nat) (x : Vec K) (s : String) : K := x (nv + branchOf circ s)

/-- the magnetic form by names -/
theorem magForm_eq {circ : List (Elem K)} (hu : UniqueVde circ) (nv : Nat) (x y : Vec K) :
    magForm circ nv x y = (circ.map fun e => indValue e * byName circ nv x e.id * byName circ nv y e.id).sum +
      (circ.map (coupSum Coupling.M (byName circ nv x) (byName circ nv y))).sum := by
  unfold magForm
  congr 1
  · refine brSum_map _ _ _ _ (fun j e hj => ?_) fun e _ hv => ?_
    · rw [byName, byName, branchOf_eq hu hj, Nat.zero_add]
      cases e <;> simp [indForm, indValue]
    · cases e <;> simp_all [indValue, Elem.vde]
  · refine brSum_map _ _ _ _ (fun j e hj => ?_) fun e _ hv => ?_
    · have hb := branchOf_eq hu hj
      cases e <;> simp only [mutForm, coupSum]
      rename_i id n1 n2 v ic coup
      simp only [Elem.id] at hb
      rw [mutualTerm, ← List.sum_map_mul_left, Nat.zero_add]
      congr 1
      refine List.map_congr_left fun cd _ => ?_
      rw [byName, byName, hb, partner]
      ring
    · cases e <;> simp_all [coupSum, Elem.vde]

theorem magForm_symm {sqrt : K → Option K} {circ : List (Elem K)} (hb : Built sqrt circ) (nv : Nat) (x y : Vec K) :
    magForm circ nv x y = magForm circ nv y x := by
  rw [magForm_eq hb.inv.uniq, magForm_eq hb.inv.uniq, coupSum_symm hb]
  congr 2
  refine List.map_congr_left fun e _ => ?_
  ring


/-! ### The circuit never gains energy -/

variable [LinearOrder K] [IsStrictOrderedRing K]

/-- resistances positive, capacitances and inductances not negative -/
def Positive : Elem K → Prop
  | .R _ _ _ r => 0 < r
  | .C _ _ _ c _ => 0 ≤ c
  | .L _ _ _ l _ _ => 0 ≤ l
  | _ => True

omit [LinearOrder K] [IsStrictOrderedRing K] in
theorem capForm_symm (x y : Vec K) (e : Elem K) : capForm x y e = capForm y x e := by
  cases e <;> simp only [capForm]
  ring

omit [LinearOrder K] [IsStrictOrderedRing K] in
theorem indForm_symm (nv : Nat) (x y : Vec K) (k : Nat) (e : Elem K) : indForm nv x y k e = indForm nv y x k e := by
  cases e <;> simp only [indForm]
  ring

theorem brSum_nonneg (f : Nat → Elem K → K) (l : List (Elem K)) (k : Nat) (h : ∀ e ∈ l, ∀ k, 0 ≤ f k e) :
    0 ≤ brSum f l k := by
  induction l generalizing k with
  | nil => exact le_refl _
  | cons e t ih =>
    refine add_nonneg ?_ (ih _ fun e' h' => h e' (List.mem_cons_of_mem _ h'))
    split
    · exact h e (List.mem_cons_self ..) k
    · exact le_refl _

/-- what `transient_analysis` works on, for a circuit with the unreduced matrices `s` and `D` -/
def netOf (m : Nat) (s : Sys K) (D : Mat K) (nv : Nat) (gmin : K) : Tran.Net K m where
  mna := reduce m s.M
  D := reduce m D
  N := reduceV m s.N
  Tt := fun _ => 0
  nn := nv - 1
  gmin := gmin
  nonlinear := false
  J := fun _ => 0
  Tx := fun _ => 0
  locked := []

/-- the matrices of resistors, capacitors and inductors are those of a passive network, if the magnetic energy is
symmetric and not negative -/
theorem passiveNet {nv m : Nat} {circ : List (Elem K)} {s : Sys K} {D : Mat K} {cmin gmin : K} (hnv : 0 < nv)
    (he : ∀ e ∈ circ, NodesLt nv e) (hp : ∀ e ∈ circ, Passive e) (hpos : ∀ e ∈ circ, Positive e)
    (h : generate circ nv = .ok s) (hm : s.size = m + 1) (hd : generateD circ nv (m + 1) cmin = .ok D)
    (hc : 0 ≤ cmin) (hg : 0 ≤ gmin) (hsym : ∀ x y, magForm circ nv x y = magForm circ nv y x)
    (hmag : ∀ x, 0 ≤ magForm circ nv x x) :
    Tran.PassiveNet (signs m nv) (netOf m s D nv gmin) := by
  obtain ⟨hz, h0⟩ := no_sources he hp h
  have hm' : m + 1 = nv + (vdes circ).length := by omega
  have bil := dynamic_form hnv he hp hm' hd
  have symm : ∀ x y : Fin m → K, dotProduct x (Matrix.mulVec (signs m nv * reduce m D) y) =
      dotProduct y (Matrix.mulVec (signs m nv * reduce m D) x) := by
    intro x y
    have e1 : capForm (ext x) (ext y) = capForm (ext y) (ext x) := funext (capForm_symm _ _)
    rw [bil, bil, e1, hsym]
    simp only [mul_comm]
  refine ⟨rfl, rfl, ?_, fun _ => rfl, ?_, fun v => ?_, fun v => ?_, ?_, ?_, hg⟩
  · funext i
    exact h0 _ (by have := i.isLt; omega)
  · ext i j
    have := symm (Pi.single j 1) (Pi.single i 1)
    simpa [netOf] using this
  · simp only [netOf]
    rw [bil]
    refine add_nonneg (add_nonneg (sum_nonneg' _ _ fun e hm => ?_)
      (mul_nonneg hc (Finset.sum_nonneg fun r _ => mul_self_nonneg _))) (hmag _)
    have := hpos e hm
    cases e <;> simp only [capForm, Positive] at this ⊢ <;> try exact le_refl _
    rw [mul_assoc]
    exact mul_nonneg this (mul_self_nonneg _)
  · simp only [netOf]
    rw [static_form hnv he hp h hm]
    refine sum_nonneg' _ _ fun e hm => ?_
    have := hpos e hm
    cases e <;> simp only [lost, Positive] at this ⊢ <;> try exact le_refl _
    exact div_nonneg (mul_self_nonneg _) this.le
  · show signs m nv * Op.gminMat (nv - 1) 1 = Op.gminMat (nv - 1) 1
    simp only [signs, Op.gminMat, Matrix.diagonal_mul_diagonal]
    congr 1
    funext i
    by_cases hi : i.val < nv - 1
    · rw [if_pos hi, sgn, if_pos (by omega), one_mul]
    · rw [if_neg hi, mul_zero]
  · rw [signs, Matrix.det_diagonal]
    refine Finset.prod_ne_zero_iff.mpr fun i _ => ?_
    unfold sgn
    split <;> simp

/-- inductors without couplings -/
def Uncoupled : Elem K → Prop
  | .L _ _ _ _ _ coup => coup = []
  | _ => True

omit [LinearOrder K] [IsStrictOrderedRing K] in
theorem magForm_uncoupled {circ : List (Elem K)} (hu : ∀ e ∈ circ, Uncoupled e) (nv : Nat) (x y : Vec K) :
    magForm circ nv x y = brSum (indForm nv x y) circ 0 := by
  unfold magForm
  have key : ∀ (l : List (Elem K)) (k : Nat), (∀ e ∈ l, Uncoupled e) → brSum (mutForm circ nv x y) l k = 0 := by
    intro l
    induction l with
    | nil => intros; rfl
    | cons e t ih =>
      intro k hl
      rw [brSum, ih _ fun e' h' => hl e' (List.mem_cons_of_mem _ h')]
      have := hl e (List.mem_cons_self ..)
      cases e <;> simp [mutForm, Elem.vde]
      simp only [Uncoupled] at this
      simp [this, mutualTerm]
  rw [key circ 0 hu, add_zero]

open Verif.Op Verif.Tran in
theorem energy_circuit {nv m : Nat} {circ : List (Elem K)} {s : Sys K} {D : Mat K} {cmin gmin : K} (hnv : 0 < nv)
    (he : ∀ e ∈ circ, NodesLt nv e) (hp : ∀ e ∈ circ, Passive e) (hpos : ∀ e ∈ circ, Positive e)
    (h : generate circ nv = .ok s) (hm : s.size = m + 1) (hd : generateD circ nv (m + 1) cmin = .ok D)
    (hc : 0 ≤ cmin) (hgm : 0 ≤ gmin) (hsym : ∀ x y, magForm circ nv x y = magForm circ nv y x)
    (hmag : ∀ x, 0 ≤ magForm circ nv x x) (c : Cfg K) (hme : c.meth = .euler ∨ c.meth = .trap) (hlen : 0 < c.len)
    (ho : Op.Plain c.o)
    (tstart step : K) (hst : 0 < step) (x0 : Fin m → K) (l : List (Ctl K)) (hl : ∀ a ∈ l, 0 < a.step) :
    let E := fun x : Fin m → K => (circ.map (capForm (ext x) (ext x))).sum +
      cmin * ∑ r ∈ Finset.range nv, ext x r * ext x r + magForm circ nv (ext x) (ext x)
    (history tstart x0 (run c (netOf m s D nv gmin) x0 l (start c tstart step x0)).st.points).Pairwise
      (fun later earlier => E later.x ≤ E earlier.x) := by
  intro E
  have hz := (no_sources he hp h).1
  have key := C124_energy c hme hlen ho (signs m nv) (netOf m s D nv gmin)
    (passiveNet hnv he hp hpos h hm hd hc hgm hsym hmag) tstart step hst x0 l hl
  refine key.imp fun {a b} hab => ?_
  have hE : ∀ x, energy (signs m nv) (netOf m s D nv gmin) x = E x := fun x =>
    dynamic_form hnv he hp (by omega) hd x x
  rwa [hE, hE] at hab

open Verif.Op Verif.Tran in
/-- C124 for circuits without coupled inductors, implicit Euler or the trapezoidal rule: along a transient of resistors, capacitors and inductors with nonnegative
values and no sources, the energy - computed from the values of the elements - never increases. -/
theorem C124_rlc {nv m : Nat} {circ : List (Elem K)} {s : Sys K} {D : Mat K} {cmin gmin : K} (hnv : 0 < nv)
    (he : ∀ e ∈ circ, NodesLt nv e) (hp : ∀ e ∈ circ, Passive e) (hpos : ∀ e ∈ circ, Positive e)
    (hun : ∀ e ∈ circ, Uncoupled e)
    (h : generate circ nv = .ok s) (hm : s.size = m + 1) (hd : generateD circ nv (m + 1) cmin = .ok D)
    (hc : 0 ≤ cmin) (hgm : 0 ≤ gmin) (c : Cfg K) (hme : c.meth = .euler ∨ c.meth = .trap) (hlen : 0 < c.len)
    (ho : Op.Plain c.o)
    (tstart step : K) (hst : 0 < step) (x0 : Fin m → K) (l : List (Ctl K)) (hl : ∀ a ∈ l, 0 < a.step) :
    let E := fun x : Fin m → K => (circ.map (capForm (ext x) (ext x))).sum +
      cmin * ∑ r ∈ Finset.range nv, ext x r * ext x r + brSum (indForm nv (ext x) (ext x)) circ 0
    (history tstart x0 (run c (netOf m s D nv gmin) x0 l (start c tstart step x0)).st.points).Pairwise
      (fun later earlier => E later.x ≤ E earlier.x) := by
  have key := energy_circuit hnv he hp hpos h hm hd hc hgm (fun x y => ?_) (fun x => ?_) c hme hlen ho tstart
    step hst x0 l hl
  · simp only [magForm_uncoupled hun] at key
    exact key
  · rw [magForm_uncoupled hun, magForm_uncoupled hun]
    congr 1
    exact funext fun k => funext (indForm_symm _ _ _ k)
  · rw [magForm_uncoupled hun]
    refine brSum_nonneg _ _ _ fun e hm k => ?_
    have := hpos e hm
    cases e <;> simp only [indForm, Positive] at this ⊢ <;> try exact le_refl _
    rw [mul_assoc]
    exact mul_nonneg this (mul_self_nonneg _)

/-! ### The magnetic energy of coupled inductors -/

/-- each coupling is between two inductors of the circuit and has the mutual inductance `k * sqrt(L1 * L2)` -/
theorem built_mutual {sqrt : K → Option K} (hsq : ∀ v q, sqrt v = some q → q * q = v) {circ : List (Elem K)}
    (hb : Built sqrt circ) : ∀ id n1 n2 v ic coup, Elem.L id n1 n2 v ic coup ∈ circ → ∀ cd ∈ coup,
      ∃ e1 ∈ circ, ∃ e2 ∈ circ, ∃ q, IsInd e1 cd.L1 ∧ IsInd e2 cd.L2 ∧ q * q = indValue e1 * indValue e2 ∧
        cd.M = q * cd.k := by
  induction hb with
  | nil => simp
  | @add l e _ hk hl hf ih =>
    intro id n1 n2 v ic coup hm cd hcd
    rcases List.mem_append.1 hm with hm | hm
    · obtain ⟨e1, m1, e2, m2, q, i1, i2, h1, h2⟩ := ih id n1 n2 v ic coup hm cd hcd
      exact ⟨e1, List.mem_append_left _ m1, e2, List.mem_append_left _ m2, q, i1, i2, h1, h2⟩
    · simp only [List.mem_singleton] at hm
      rw [hl id n1 n2 v ic coup hm.symm] at hcd
      cases hcd
  | @couple l l' id L1 L2 k hb h ih =>
    obtain ⟨q, hne, ⟨e1, m1, e2, m2, i1, i2, hq⟩, rfl⟩ := addCoupling_map_value hb.inv.uniq h
    generalize hcd0 : (⟨id, L1, L2, k, q * k⟩ : Coupling K) = cd0
    have hval : ∀ e : Elem K, indValue (attachIf cd0 e) = indValue e := by
      intro e
      unfold attachIf
      split
      · cases e <;> rfl
      · rfl
    have lift : ∀ (cd : Coupling K) (e1 e2 : Elem K) (q : K), e1 ∈ l → e2 ∈ l → IsInd e1 cd.L1 → IsInd e2 cd.L2 →
        q * q = indValue e1 * indValue e2 → cd.M = q * cd.k →
        ∃ e1 ∈ l.map (attachIf cd0) ++ [Elem.K cd0], ∃ e2 ∈ l.map (attachIf cd0) ++ [Elem.K cd0], ∃ q,
          IsInd e1 cd.L1 ∧ IsInd e2 cd.L2 ∧ q * q = indValue e1 * indValue e2 ∧ cd.M = q * cd.k := by
      intro cd e1 e2 q m1 m2 i1 i2 h1 h2
      refine ⟨attachIf cd0 e1, List.mem_append_left _ (List.mem_map_of_mem m1), attachIf cd0 e2,
        List.mem_append_left _ (List.mem_map_of_mem m2), q, i1.attachIf cd0, i2.attachIf cd0, ?_, h2⟩
      rw [hval, hval, h1]
    intro id' n1 n2 v ic coup hm cd hcd
    rcases List.mem_append.1 hm with hm | hm
    · obtain ⟨e, he, heq⟩ := List.mem_map.1 hm
      obtain ⟨c0, rfl, hcoup⟩ := attachIf_L heq
      have hold : cd ∈ c0 ∨ cd = cd0 := by
        rw [hcoup] at hcd
        split at hcd
        · simpa using hcd
        · exact Or.inl hcd
      rcases hold with hold | rfl
      · obtain ⟨e1, m1, e2, m2, q, i1, i2, h1, h2⟩ := ih id' n1 n2 v ic c0 he cd hold
        exact lift cd e1 e2 q m1 m2 i1 i2 h1 h2
      · subst hcd0
        exact lift _ e1 e2 q m1 m2 i1 i2 (hsq _ _ hq) rfl
    · simp at hm

/-- the coupling factors of every inductor add up to at most one in absolute value; for an inductor with a
single coupling this is `|k| ≤ 1` -/
def Loose : Elem K → Prop
  | .L _ _ _ _ _ coup => (coup.map fun cd => |cd.k|).sum ≤ 1
  | _ => True

/-- two coupled terms are bounded by the energies of the inductors -/
theorem mutual_bound {a b p k : K} (ha : 0 ≤ a) (hb : 0 ≤ b) (hp : p * p = a * b) : -(|k| * (a + b) / 2) ≤ k * p := by
  have h1 : |p| ≤ (a + b) / 2 := by
    refine abs_le_of_sq_le_sq ?_ (by positivity)
    nlinarith [mul_self_nonneg (a - b)]
  have h2 : |k * p| ≤ |k| * ((a + b) / 2) := by
    rw [abs_mul]
    exact mul_le_mul_of_nonneg_left h1 (abs_nonneg _)
  have h3 := neg_abs_le (k * p)
  have h4 : |k| * (a + b) / 2 = |k| * ((a + b) / 2) := by ring
  linarith

omit [LinearOrder K] [IsStrictOrderedRing K] in
theorem sum_neg' {ι : Type} (l : List ι) (f : ι → K) : (l.map fun i => -f i).sum = -(l.map f).sum := by
  induction l with
  | nil => simp
  | cons a t ih => simp only [List.map_cons, List.sum_cons, ih]; ring

theorem sum_le_sum' {ι : Type} (l : List ι) (f g : ι → K) (h : ∀ i ∈ l, f i ≤ g i) :
    (l.map f).sum ≤ (l.map g).sum := by
  induction l with
  | nil => exact le_refl _
  | cons a t ih =>
    simp only [List.map_cons, List.sum_cons]
    exact add_le_add (h a (List.mem_cons_self ..)) (ih fun i hi => h i (List.mem_cons_of_mem _ hi))

/-- C09: in a circuit built through the API the magnetic energy of all inductors together is not negative,
whatever the currents, if no inductor is coupled by more than one in total. -/
theorem C09_magnetic_energy {sqrt : K → Option K} (hsq : ∀ v q, sqrt v = some q → q * q = v) {circ : List (Elem K)}
    (hb : Built sqrt circ) (hpos : ∀ e ∈ circ, Positive e) (hlo : ∀ e ∈ circ, Loose e) (nv : Nat) (x : Vec K) :
    0 ≤ magForm circ nv x x := by
  have hu := hb.inv.uniq
  rw [magForm_eq hu]
  -- inductance by name
  let W : String → K := fun s => (circ.map fun e => if e.vde = true ∧ e.id = s then indValue e else 0).sum
  have hW : ∀ e ∈ circ, e.vde = true → W e.id = indValue e := by
    intro e he hv
    rw [← sum_unique hu he hv (indValue e)]
    show (circ.map _).sum = _
    congr 1
    refine List.map_congr_left fun e' he' => ?_
    by_cases hc : e'.vde = true ∧ e'.id = e.id
    · rw [if_pos hc, if_pos hc]
      obtain ⟨i, hi⟩ := List.getElem?_of_mem he
      obtain ⟨j, hj⟩ := List.getElem?_of_mem he'
      have := unique_pos hu hi hj hv hc.1 (by rw [hc.2])
      subst this
      rw [hi] at hj
      cases hj
      rfl
    · rw [if_neg hc, if_neg hc]
  have hpv : ∀ e ∈ circ, 0 ≤ indValue e := by
    intro e he
    have := hpos e he
    cases e <;> simp only [indValue, Positive] at this ⊢ <;> first | exact le_refl _ | exact this
  let X := byName circ nv x
  let A : String → K := fun s => W s * X s * X s
  have hA : ∀ e ∈ circ, e.vde = true → A e.id = indValue e * X e.id * X e.id := by
    intro e he hv
    show W e.id * X e.id * X e.id = _
    rw [hW e he hv]
  have hA0 : ∀ e ∈ circ, e.vde = true → 0 ≤ A e.id := by
    intro e he hv
    rw [hA e he hv, mul_assoc]
    exact mul_nonneg (hpv e he) (mul_self_nonneg _)
  have key : ∀ e ∈ circ, -(coupSum (fun cd => |cd.k| / 2) A (fun _ => 1) e + coupSum (fun cd => |cd.k| / 2) (fun _ => 1) A e) ≤
      coupSum Coupling.M X X e := by
    intro e he
    cases e <;> simp only [coupSum, add_zero, neg_zero, le_refl]
    rename_i id n1 n2 v ic coup
    have hnn : 0 ≤ (coup.map fun cd => cd.M * X id * X (partner id cd) +
        (|cd.k| / 2 * A id * 1 + |cd.k| / 2 * 1 * A (partner id cd))).sum := by
      refine sum_nonneg' _ _ fun cd hcd => ?_
      obtain ⟨e1, m1, e2, m2, q, i1, i2, hq, hM⟩ := built_mutual hsq hb id n1 n2 v ic coup he cd hcd
      obtain ⟨-, -, hup, hmem⟩ := hb.inv.names id n1 n2 v ic coup he cd hcd
      have a1 := hA e1 m1 i1.vde.1
      have a2 := hA e2 m2 i2.vde.1
      have b1 := hA0 e1 m1 i1.vde.1
      have b2 := hA0 e2 m2 i2.vde.1
      rw [i1.vde.2] at a1 b1
      rw [i2.vde.2] at a2 b2
      have hp : (q * X cd.L1 * X cd.L2) * (q * X cd.L1 * X cd.L2) = A cd.L1 * A cd.L2 := by
        rw [a1, a2]
        linear_combination (X cd.L1 * X cd.L2) ^ 2 * hq
      have bound := mutual_bound (k := cd.k) b1 b2 hp
      rcases hmem with rfl | rfl
      · rw [partner, if_pos rfl, hM]
        linarith
      · rw [partner, if_neg (Ne.symm hup), hM]
        linarith
    rw [List.sum_map_add, List.sum_map_add] at hnn
    linarith
  have hsum := sum_le_sum' _ _ _ key
  rw [show (circ.map fun e => -(coupSum (fun cd => |cd.k| / 2) A (fun _ => 1) e +
      coupSum (fun cd => |cd.k| / 2) (fun _ => 1) A e)).sum =
      -((circ.map (coupSum (fun cd => |cd.k| / 2) A (fun _ => 1))).sum +
        (circ.map (coupSum (fun cd => |cd.k| / 2) (fun _ => 1) A)).sum) from by
      rw [← List.sum_map_add, sum_neg'], coupSum_symm hb _ (fun _ => 1) A] at hsum
  have hself : (circ.map (coupSum (fun cd => |cd.k| / 2) A (fun _ => 1))).sum +
      (circ.map (coupSum (fun cd => |cd.k| / 2) A (fun _ => 1))).sum ≤
      (circ.map fun e => indValue e * X e.id * X e.id).sum := by
    rw [← List.sum_map_add]
    refine sum_le_sum' _ _ _ fun e he => ?_
    cases e with
    | L id n1 n2 v ic coup =>
      have h1 := hlo _ he
      have h2 := hA _ he rfl
      have h3 := hA0 _ he rfl
      simp only [Loose] at h1
      simp only [coupSum]
      rw [← h2]
      have e1 : (coup.map fun cd => |cd.k| / 2 * A id * 1).sum = (coup.map fun cd => |cd.k|).sum * (A id / 2) := by
        rw [← List.sum_map_mul_right]
        congr 1
        exact List.map_congr_left fun cd _ => by ring
      rw [e1]
      simp only [Elem.id] at h3 ⊢
      nlinarith
    | _ => simp [coupSum, indValue]
  linarith

open Verif.Op Verif.Tran in
/-- C124 for all passive circuits of resistors, capacitors and inductors, coupled or not: passive means that no
resistance, capacitance or inductance is negative and that no currents give a negative magnetic energy. -/
theorem C124_circuit {sqrt : K → Option K} {nv m : Nat} {circ : List (Elem K)} {s : Sys K} {D : Mat K} {cmin gmin : K}
    (hnv : 0 < nv) (hb : Built sqrt circ) (he : ∀ e ∈ circ, NodesLt nv e) (hp : ∀ e ∈ circ, Passive e)
    (hpos : ∀ e ∈ circ, Positive e) (hmag : ∀ x, 0 ≤ magForm circ nv x x)
    (h : generate circ nv = .ok s) (hm : s.size = m + 1) (hd : generateD circ nv (m + 1) cmin = .ok D)
    (hc : 0 ≤ cmin) (hgm : 0 ≤ gmin) (c : Cfg K) (hme : c.meth = .euler ∨ c.meth = .trap) (hlen : 0 < c.len)
    (ho : Op.Plain c.o) (tstart step : K) (hst : 0 < step) (x0 : Fin m → K) (l : List (Ctl K))
    (hl : ∀ a ∈ l, 0 < a.step) :
    let E := fun x : Fin m → K => (circ.map (capForm (ext x) (ext x))).sum +
      cmin * ∑ r ∈ Finset.range nv, ext x r * ext x r + magForm circ nv (ext x) (ext x)
    (history tstart x0 (run c (netOf m s D nv gmin) x0 l (start c tstart step x0)).st.points).Pairwise
      (fun later earlier => E later.x ≤ E earlier.x) :=
  energy_circuit hnv he hp hpos h hm hd hc hgm (magForm_symm hb nv) hmag c hme hlen ho tstart step hst x0 l hl

open Verif.Op Verif.Tran in
/-- C124 for circuits with coupled inductors which are passive because the couplings of each inductor add up to
at most one in absolute value. -/
theorem C124_coupled {sqrt : K → Option K} (hsq : ∀ v q, sqrt v = some q → q * q = v) {nv m : Nat}
    {circ : List (Elem K)} {s : Sys K} {D : Mat K} {cmin gmin : K} (hnv : 0 < nv) (hb : Built sqrt circ)
    (he : ∀ e ∈ circ, NodesLt nv e) (hp : ∀ e ∈ circ, Passive e) (hpos : ∀ e ∈ circ, Positive e)
    (hlo : ∀ e ∈ circ, Loose e)
    (h : generate circ nv = .ok s) (hm : s.size = m + 1) (hd : generateD circ nv (m + 1) cmin = .ok D)
    (hc : 0 ≤ cmin) (hgm : 0 ≤ gmin) (c : Cfg K) (hme : c.meth = .euler ∨ c.meth = .trap) (hlen : 0 < c.len)
    (ho : Op.Plain c.o)
    (tstart step : K) (hst : 0 < step) (x0 : Fin m → K) (l : List (Ctl K)) (hl : ∀ a ∈ l, 0 < a.step) :
    let E := fun x : Fin m → K => (circ.map (capForm (ext x) (ext x))).sum +
      cmin * ∑ r ∈ Finset.range nv, ext x r * ext x r + magForm circ nv (ext x) (ext x)
    (history tstart x0 (run c (netOf m s D nv gmin) x0 l (start c tstart step x0)).st.points).Pairwise
      (fun later earlier => E later.x ≤ E earlier.x) :=
  energy_circuit hnv he hp hpos h hm hd hc hgm (magForm_symm hb nv) (C09_magnetic_energy hsq hb hpos hlo nv) c hme
    hlen ho tstart step hst x0 l hl

/-- square roots of squares of rationals -/
def sqrtQ (v : ℚ) : Option ℚ := if v = 1 then some 1 else if v = 36 then some 6 else none

theorem sqrtQ_sq : ∀ v q, sqrtQ v = some q → q * q = v := by
  intro v q h
  unfold sqrtQ at h
  split at h
  · cases h; simp [*]
  · split at h
    · cases h; norm_num [*]
    · cases h

/-- a transformer loaded with a resistor and a capacitor -/
def transformer : List (Elem ℚ) :=
  [.C "C1" 1 0 2 none, .L "L1" 1 0 4 none [⟨"K1", "L1", "L2", -1 / 2, -3⟩],
    .L "L2" 2 0 9 none [⟨"K1", "L1", "L2", -1 / 2, -3⟩], .R "R1" 2 0 5, .K ⟨"K1", "L1", "L2", -1 / 2, -3⟩]

theorem transformer_made : addCoupling sqrtQ
    [.C "C1" 1 0 2 none, .L "L1" 1 0 4 none [], .L "L2" 2 0 9 none [], .R "R1" 2 0 5] "K1" "L1" "L2" (-1 / 2) =
      .ok transformer := by
  have hs : sqrtQ (4 * 9) = some 6 := by decide +kernel
  simp [addCoupling, findPair, indValue, hs, attach, List.modify, List.modifyTailIdx, List.modifyTailIdx.go,
    transformer, List.modifyHead]
  norm_num

example : Built sqrtQ transformer := by
  refine .couple ?_ transformer_made
  have h0 : Built sqrtQ ([] : List (Elem ℚ)) := .nil
  have h1 : Built sqrtQ ([.C "C1" 1 0 2 none] : List (Elem ℚ)) :=
    .add (e := .C "C1" 1 0 2 none) h0 (by simp) (by simp) (by simp)
  have h2 : Built sqrtQ ([.C "C1" 1 0 2 none, .L "L1" 1 0 4 none []] : List (Elem ℚ)) :=
    .add (e := .L "L1" 1 0 4 none []) h1 (by simp) (by simp) (by simp [Elem.vde])
  have h3 : Built sqrtQ ([.C "C1" 1 0 2 none, .L "L1" 1 0 4 none [], .L "L2" 2 0 9 none []] : List (Elem ℚ)) :=
    .add (e := .L "L2" 2 0 9 none []) h2 (by simp) (by simp) (by decide +kernel)
  exact .add (e := .R "R1" 2 0 5) h3 (by simp) (by simp) (by simp [Elem.vde])

example : (∀ e ∈ transformer, NodesLt 3 e) ∧ (∀ e ∈ transformer, Passive e) ∧ (∀ e ∈ transformer, Positive e) ∧
    (∀ e ∈ transformer, Loose e) := by
  have : |(-1 / 2 : ℚ)| = 1 / 2 := by norm_num [abs_of_nonpos]
  simp only [transformer, List.mem_cons, List.not_mem_nil, or_false, forall_eq_or_imp, forall_eq, NodesLt, Passive,
    Positive, Loose, List.map_cons, List.map_nil, List.sum_cons, List.sum_nil, this]
  norm_num

/-- its magnetic energy (twice) with 1 A in each inductor: 4 + 9 - 2 * 3 -/
example : magForm transformer 3 (fun _ => 1) (fun _ => 1) = 7 := by decide +kernel

/-- three inductors of 1 H, each pair coupled with the factor -9/10, as accepted by the API -/
def triple : List (Elem ℚ) :=
  let c0 : List (Elem ℚ) := [.L "L1" 1 0 1 none [], .L "L2" 2 0 1 none [], .L "L3" 3 0 1 none []]
  let c1 := okOr [] (addCoupling sqrtQ c0 "K1" "L1" "L2" (-9 / 10))
  let c2 := okOr [] (addCoupling sqrtQ c1 "K2" "L2" "L3" (-9 / 10))
  okOr [] (addCoupling sqrtQ c2 "K3" "L1" "L3" (-9 / 10))

/-- C09: couplings each below one are not enough when an inductor has several: the API accepts three inductors
whose magnetic energy is negative. -/
theorem C09_triple_negative : triple.length = 6 ∧ magForm triple 4 (fun _ => 1) (fun _ => 1) < 0 := by decide +kernel

/-- a series resonant circuit closed on a resistor: nodes 1 and 2 and the current of L1 -/
def tank : List (Elem ℚ) := [.C "C1" 1 0 2 none, .L "L1" 1 2 3 none [], .R "R1" 2 0 5]

example : (∀ e ∈ tank, NodesLt 3 e) ∧ (∀ e ∈ tank, Passive e) ∧ (∀ e ∈ tank, Positive e) := by
  simp [tank, NodesLt, Passive, Positive]

example : (okOr ⟨0, fun _ _ => 0, fun _ => 0⟩ (generate tank 3)).size = 3 + 1 ∧
    (generate tank 3).isOk = true ∧ (generateD tank 3 (3 + 1) (1 / 1000)).isOk = true := by
  decide +kernel

/-- its energy with 7 V on the capacitor and 1 A in the inductor -/
example :
    let x : Fin 3 → ℚ := ![7, 0, 1]
    (tank.map (capForm (ext x) (ext x))).sum = 98 ∧ brSum (indForm 3 (ext x) (ext x)) tank 0 = 3 := by
  decide +kernel

end Verif.Rlc
