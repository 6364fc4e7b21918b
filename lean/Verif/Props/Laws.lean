import Verif.Props.RenameB

/-!
Property C171: circuits that are equivalent by the textbook have the same operating point: sources may be converted,
resistors in series and in parallel may be replaced by one, an ammeter does not disturb.

The operating point is first characterised by the laws of the circuit, with currents called by the names of the elements.
-/

namespace Verif.Laws
open Verif.Circuit Verif.Mna Verif.Rename

section
variable {α : Type} [Field α]

/-- current from terminal 1 to terminal 2, voltages by node, currents by element name (in capitals), sources times `t` -/
def cur (t : α) (v : Nat → α) (i : List Char → α) : Elem α → α
  | .R _ a b r => (v a - v b) / r
  | .I _ _ _ s => t * staticVal s
  | .G _ _ _ c d k => k * (v c - v d)
  | .F _ _ _ src k => k * i (upper src)
  | .V id .. | .E id .. | .H id .. | .L id .. => i (upper id)
  | _ => 0

/-- the equation of a voltage-defined element, as coded: see C07 for the cases where it is not the documented one -/
def lawOf (t : α) (v : Nat → α) (i : List Char → α) : Elem α → α
  | .V _ a b s => v a - v b - t * staticVal s
  | .L _ a b .. => v a - v b
  | .E _ a b c d k => (if a = c ∨ a = d then 0 else v a) - (if b = c ∨ b = d then 0 else v b)
      - (if c = d then 0 else k * v c) + k * v d
  | .H _ a b src k => v a - v b + k * i (upper src)
  | _ => 0

/-- sum of the currents that leave node `r` through the elements -/
def leaving (t : α) (v : Nat → α) (i : List Char → α) (circ : List (Elem α)) (r : Nat) : α :=
  (circ.map fun e => inj (term e).1 (term e).2 (cur t v i e) r).sum

/-- Kirchhoff's laws and the laws of the elements -/
structure Obeys (circ : List (Elem α)) (nv : Nat) (t : α) (v : Nat → α) (i : List Char → α) : Prop where
  ground : v 0 = 0
  node : ∀ r, 0 < r → r < nv → leaving t v i circ r = 0
  branch : ∀ e ∈ circ, e.vde = true → lawOf t v i e = 0

theorem leaving_append (t : α) (v : Nat → α) (i : List Char → α) (A B : List (Elem α)) (r : Nat) :
    leaving t v i (A ++ B) r = leaving t v i A r + leaving t v i B r := by
  simp [leaving]

theorem inj_other {a b r : Nat} (ha : r ≠ a) (hb : r ≠ b) (x : α) : inj a b x r = 0 := by
  simp [inj, ha, hb]

theorem leaving_new {nv : Nat} (t : α) (v : Nat → α) (i : List Char → α) {A : List (Elem α)}
    (h : ∀ e ∈ A, NodesLt nv e) (hnv : 0 < nv) (r : Nat) (hr : nv ≤ r) : leaving t v i A r = 0 := by
  unfold leaving
  apply sum_zero_of
  intro e he
  have hn := h e he
  apply inj_other
  · cases e <;> simp only [NodesLt, term] at hn ⊢ <;> omega
  · cases e <;> simp only [NodesLt, term] at hn ⊢ <;> omega

/-- currents and voltages that are not used do not matter -/
theorem leaving_congr {nv : Nat} (t : α) {v v' : Nat → α} {i i' : List Char → α} {A : List (Elem α)}
    (h : ∀ e ∈ A, NodesLt nv e) (hv : ∀ r, r < nv → v' r = v r)
    (hi : ∀ e ∈ A, e.vde = true → i' (upper e.id) = i (upper e.id))
    (hs : ∀ e ∈ A, ∀ id a b src k, (e = .F id a b src k ∨ e = .H id a b src k) → i' (upper src) = i (upper src))
    (r : Nat) : leaving t v' i' A r = leaving t v i A r := by
  unfold leaving
  congr 1
  apply List.map_congr_left
  intro e he
  have hn := h e he
  have hie := hi e he
  have hse := hs e he
  congr 1
  cases e <;> simp only [NodesLt, cur, Elem.vde, Elem.id, true_implies] at hn hie ⊢
  case R => rw [hv _ hn.1, hv _ hn.2]
  case G => rw [hv _ hn.2.2.1, hv _ hn.2.2.2]
  case F => rw [hse _ _ _ _ _ (.inl rfl)]
  all_goals exact hie

theorem law_congr {nv : Nat} (t : α) {v v' : Nat → α} {i i' : List Char → α} {e : Elem α} (hn : NodesLt nv e)
    (hv : ∀ r, r < nv → v' r = v r)
    (hs : ∀ id a b src k, (e = .F id a b src k ∨ e = .H id a b src k) → i' (upper src) = i (upper src)) :
    lawOf t v' i' e = lawOf t v i e := by
  cases e <;> simp only [NodesLt, lawOf] at hn ⊢
  case V => rw [hv _ hn.1, hv _ hn.2]
  case L => rw [hv _ hn.1, hv _ hn.2]
  case E => rw [hv _ hn.1, hv _ hn.2.1, hv _ hn.2.2.1, hv _ hn.2.2.2]
  case H => rw [hv _ hn.1, hv _ hn.2, hs _ _ _ _ _ (.inr rfl)]

theorem inj_zero (a b r : Nat) : inj a b (0 : α) r = 0 := by
  simp only [inj]; split_ifs <;> simp

theorem inj_affine (a b : Nat) (c x y : α) (r : Nat) : inj a b (x + c * y) r = inj a b x r + c * inj a b y r := by
  simp only [inj]; split_ifs <;> ring

theorem cur_sub (t t' : α) (v v' : Nat → α) (i i' : List Char → α) (e : Elem α) :
    cur (t - t') (fun r => v r - v' r) (fun w => i w - i' w) e = cur t v i e + (-1) * cur t' v' i' e := by
  cases e <;> simp only [cur] <;> ring

theorem leaving_sub (t t' : α) (v v' : Nat → α) (i i' : List Char → α) (A : List (Elem α)) (r : Nat) :
    leaving (t - t') (fun r => v r - v' r) (fun w => i w - i' w) A r = leaving t v i A r + (-1) * leaving t' v' i' A r := by
  unfold leaving
  rw [← List.sum_map_mul_left, ← List.sum_map_add]
  congr 1
  apply List.map_congr_left
  intro e _
  rw [cur_sub, inj_affine]

theorem law_sub (t t' : α) (v v' : Nat → α) (i i' : List Char → α) (e : Elem α) :
    lawOf (t - t') (fun r => v r - v' r) (fun w => i w - i' w) e = lawOf t v i e + (-1) * lawOf t' v' i' e := by
  cases e <;> simp only [lawOf] <;> (try split_ifs) <;> ring

/-! ### The equations and the laws -/

/-- the currents by name -/
def named (circ : List (Elem α)) (nv : Nat) (x : Vec α) : List Char → α := fun w =>
  x (nv + (vdes circ).findIdx fun e => upper e.id = w)

omit [Field α] in
theorem named_upper (circ : List (Elem α)) (nv : Nat) (x : Vec α) (s : String) :
    named circ nv x (upper s) = x (nv + branchOf circ s) := rfl

/-- the same circuit with all sources times `t` -/
theorem rows_laws {nv : Nat} {circ : List (Elem α)} {s : Sys α} (hu : UniqueVde circ) (he : ∀ e ∈ circ, NodesLt nv e)
    (hp : ∀ e ∈ circ, Proper e) (h : generate circ nv = .ok s) (t : α) (x : Vec α) :
    (∀ r, r < nv → mulVec s.size s.M x r + t * s.N r = leaving t x (named circ nv x) circ r) ∧
    ∀ k e, (vdes circ)[k]? = some e →
      mulVec s.size s.M x (nv + k) + t * s.N (nv + k) = lawOf t x (named circ nv x) e := by
  have z : ∀ r, mulVec s.size s.M (fun _ => 0) r = 0 := by intro r; simp [mulVec]
  constructor
  · intro r hr
    have a := C07_node_rows he hp h x r hr
    have b := C07_node_rows he hp h (fun _ => 0) r hr
    rw [z, zero_add, kcl_eq_sum hu] at b
    rw [kcl_eq_sum hu] at a
    have e1 : mulVec s.size s.M x r + t * s.N r = mulVec s.size s.M x r + s.N r + (t - 1) * s.N r := by ring
    rw [e1, a, b, leaving]
    rw [← List.sum_map_mul_left, ← List.sum_map_add]
    congr 1
    apply List.map_congr_left
    intro e hm
    rw [← inj_affine]
    congr 1
    cases e <;> simp only [currentN, current, cur, named_upper, Elem.id] <;> ring
  · intro k e hk
    have a := generate_branch he hp h x k e hk
    have b := generate_branch he hp h (fun _ => 0) k e hk
    rw [z, zero_add] at b
    have e1 : mulVec s.size s.M x (nv + k) + t * s.N (nv + k) =
      mulVec s.size s.M x (nv + k) + s.N (nv + k) + (t - 1) * s.N (nv + k) := by ring
    rw [e1, a, b]
    cases e <;> simp only [lawCoded, lawOf, named_upper, staticVal] <;> (try split_ifs) <;> ring

end

section
open Matrix Verif.Rlc Verif.Bound Verif.Recip
variable {K : Type} [Field K] [LinearOrder K] [IsStrictOrderedRing K] {m : Nat}

omit [LinearOrder K] [IsStrictOrderedRing K] in
theorem solution_obeys {nv : Nat} {circ : List (Elem K)} {s : Sys K} (hu : UniqueVde circ)
    (he : ∀ e ∈ circ, NodesLt nv e) (hp : ∀ e ∈ circ, Proper e) (h : generate circ nv = .ok s) (t : K) (x : Vec K) :
    Solution nv s.size s.M (fun _ _ => 0) (fun r => t * s.N r) 0 0 x ↔ Obeys circ nv t x (named circ nv x) := by
  obtain ⟨h1, h2⟩ := rows_laws hu he hp h t x
  have hz := (generate_row x he hp h).1
  constructor
  · intro hs
    refine ⟨hs.1, fun r h0 hr => ?_, fun e hm hv => ?_⟩
    · rw [← h1 r hr]
      have := hs.2 r h0 (by omega)
      simpa using this
    · obtain ⟨k, hk⟩ := List.mem_iff_getElem?.1 (List.mem_filter.2 ⟨hm, hv⟩ : e ∈ vdes circ)
      rw [← h2 k e hk]
      have hlt : k < (vdes circ).length := (List.getElem?_eq_some_iff.1 hk).1
      by_cases h0 : nv + k = 0
      · have e0 : nv = 0 := by omega
        have := he e hm
        subst e0
        cases e <;> simp [NodesLt, Elem.vde] at this hv
      · have := hs.2 (nv + k) (by omega) (by omega)
        simpa using this
  · intro ho
    refine ⟨ho.ground, fun r h0 hr => ?_⟩
    have key : mulVec s.size s.M x r + t * s.N r = 0 := by
      by_cases hlt : r < nv
      · rw [h1 r hlt]; exact ho.node r h0 hlt
      · have hk : r - nv < (vdes circ).length := by omega
        have := h2 (r - nv) _ (List.getElem?_eq_getElem hk)
        rw [show nv + (r - nv) = r by omega] at this
        rw [this]
        have hm := List.mem_filter.1 (List.getElem_mem hk)
        exact ho.branch _ hm.1 hm.2
    simpa using key

/-- unknowns from voltages and named currents -/
def vector (circ : List (Elem K)) (nv : Nat) (v : Nat → K) (i : List Char → K) : Vec K := fun r =>
  if r < nv then v r else match (vdes circ)[r - nv]? with
    | some e => i (upper e.id)
    | none => 0

omit [LinearOrder K] [IsStrictOrderedRing K] in
theorem vector_named {nv : Nat} {circ : List (Elem K)} (hu : UniqueVde circ) (v : Nat → K) (i : List Char → K) {s : String}
    (hs : ∃ e ∈ circ, e.vde = true ∧ upper e.id = upper s) :
    named circ nv (vector circ nv v i) (upper s) = i (upper s) := by
  obtain ⟨e, hm, hv, hus⟩ := hs
  obtain ⟨k, hk⟩ : ∃ k : Nat, (vdes circ)[k]? = some e :=
    List.mem_iff_getElem?.1 (List.mem_filter.2 ⟨hm, hv⟩ : e ∈ vdes circ)
  rw [← hus, named_upper, branchOf_eq hu hk]
  simp [vector, hk]

omit [LinearOrder K] [IsStrictOrderedRing K] in
theorem obeys_vector {nv : Nat} (hnv : 0 < nv) {circ : List (Elem K)} (hu : UniqueVde circ)
    (he : ∀ e ∈ circ, NodesLt nv e) (hc : ∀ e ∈ circ, CtrlExists circ e) {t : K} {v : Nat → K} {i : List Char → K}
    (h : Obeys circ nv t v i) :
    Obeys circ nv t (vector circ nv v i) (named circ nv (vector circ nv v i)) := by
  have hv : ∀ r, r < nv → vector circ nv v i r = v r := fun r hr => by simp [vector, hr]
  have hi : ∀ e ∈ circ, e.vde = true → named circ nv (vector circ nv v i) (upper e.id) = i (upper e.id) :=
    fun e hm hvd => vector_named hu v i ⟨e, hm, hvd, rfl⟩
  have hs : ∀ e ∈ circ, ∀ id a b src k, (e = .F id a b src k ∨ e = .H id a b src k) →
      named circ nv (vector circ nv v i) (upper src) = i (upper src) := by
    intro e hm id a b src k hee
    apply vector_named hu v i
    have := hc e hm
    rcases hee with rfl | rfl <;> exact this
  refine ⟨by rw [hv 0 hnv]; exact h.ground, fun r h0 hr => ?_, fun e hm hvd => ?_⟩
  · rw [leaving_congr t he hv hi hs]; exact h.node r h0 hr
  · rw [law_congr t (he e hm) hv (hs e hm)]; exact h.branch e hm hvd

/-- the equations have one solution if and only if the laws without sources only allow zero -/
theorem C171_regular {nv : Nat} (hnv : 0 < nv) {circ : List (Elem K)} {s : Sys K} (hu : UniqueVde circ)
    (he : ∀ e ∈ circ, NodesLt nv e) (hp : ∀ e ∈ circ, Proper e) (h : generate circ nv = .ok s) (hm : s.size = m + 1) :
    (reduce m s.M).det ≠ 0 ↔ ∀ v i, Obeys circ nv 0 v i →
      (∀ r, r < nv → v r = 0) ∧ ∀ e ∈ circ, e.vde = true → i (upper e.id) = 0 := by
  have hz : Op.gminMat (m := m) (nv - 1) (0 : K) = 0 := by
    unfold Op.gminMat
    ext i j
    by_cases e : i = j
    · subst e; simp
    · simp [Matrix.diagonal_apply_ne _ e]
  have hc := ((C07_assembly_succeeds_iff circ nv).1 ⟨s, h⟩).2.1
  have hsz := (generate_row (fun _ => 0) he hp h).1
  constructor
  · intro hd v i ho
    have h1 := obeys_vector hnv hu he hc ho
    have h2 := (solution_obeys hu he hp h 0 _).2 h1
    simp only [zero_mul] at h2
    have h3 := regular hnv hm (g := 0) (by rwa [hz, add_zero]) _ h2
    refine ⟨fun r hr => ?_, fun e hme hv => ?_⟩
    · rw [← h3 r (by omega)]; simp [vector, hr]
    · obtain ⟨k, hk⟩ : ∃ k : Nat, (vdes circ)[k]? = some e :=
        List.mem_iff_getElem?.1 (List.mem_filter.2 ⟨hme, hv⟩ : e ∈ vdes circ)
      have hlt : k < (vdes circ).length := (List.getElem?_eq_some_iff.1 hk).1
      rw [← h3 (nv + k) (by omega)]; simp [vector, hk]
  · intro ha hd
    obtain ⟨w, hw, hw0⟩ := Matrix.exists_mulVec_eq_zero_iff.2 hd
    have s1 : Solution nv (m + 1) s.M (fun _ _ => 0) (fun r => 0 * s.N r) 0 0 (Rlc.ext w) := by
      refine (solution_iff hnv s.M _ 0 w).1 ?_
      rw [hz, add_zero, hw0]
      funext i
      simp [reduceV]
    rw [← hm] at s1
    obtain ⟨a, b⟩ := ha _ _ ((solution_obeys hu he hp h 0 _).1 s1)
    apply hw
    funext j
    have e1 : Rlc.ext w (j.val + 1) = w j := by simp [Rlc.ext, j.isLt]
    rw [Pi.zero_apply, ← e1]
    by_cases hj : j.val + 1 < nv
    · exact a _ hj
    · have hk : j.val + 1 - nv < (vdes circ).length := by have := j.isLt; omega
      have hme := List.mem_filter.1 (List.getElem_mem hk)
      have := b _ hme.1 hme.2
      rw [named_upper, branchOf_eq hu (List.getElem?_eq_getElem hk)] at this
      rwa [show nv + (j.val + 1 - nv) = j.val + 1 by omega] at this

/-- C171: `op_analysis` of a regular linear circuit reports the voltages and currents that obey the laws of the circuit,
and there are no others. -/
theorem C171_op {nv : Nat} (hnv : 0 < nv) {circ : List (Elem K)} {s : Sys K} (hu : UniqueVde circ)
    (he : ∀ e ∈ circ, NodesLt nv e) (hp : ∀ e ∈ circ, Proper e) (h : generate circ nv = .ok s) (hm : s.size = m + 1)
    {o : Op.OOpts K} (ho : Op.Plain o) (hstd : o.meth.std = true) (gmin : K) (h0 : (reduce m s.M).det ≠ 0)
    (h1 : (reduce m s.M + Op.gminMat (nv - 1) gmin).det ≠ 0) (x0 : Option (Fin m → K)) :
    ∃ x : Fin m → K, Op.opAnalysis o (opCirc m nv s) gmin x0 = some (some ⟨x, 0⟩) ∧
      Obeys circ nv 1 (Rlc.ext x) (named circ nv (Rlc.ext x)) ∧
      ∀ v i, Obeys circ nv 1 v i → (∀ r, r < nv → v r = Rlc.ext x r) ∧
        ∀ e ∈ circ, e.vde = true → i (upper e.id) = Rlc.ext x (nv + branchOf circ e.id) := by
  have hz : Op.gminMat (m := m) (nv - 1) (0 : K) = 0 := by
    unfold Op.gminMat
    ext i j
    by_cases e : i = j
    · subst e; simp
    · simp [Matrix.diagonal_apply_ne _ e]
  obtain ⟨x, e1, e2⟩ := Op.C119_linear ho hstd (c := opCirc m nv s) ⟨rfl, rfl⟩ gmin h0 h1 x0
  have t1 : Solution nv (m + 1) s.M (fun _ _ => 0) s.N 0 0 (Rlc.ext x) := by
    refine (solution_iff hnv s.M _ 0 x).1 ?_
    rw [hz, add_zero]
    simpa [opCirc] using e2
  rw [← hm] at t1
  have o1 := (solution_obeys hu he hp h 1 (Rlc.ext x)).1 (by simpa using t1)
  refine ⟨x, e1, o1, fun v i hvi => ?_⟩
  have diff : Obeys circ nv 0 (fun r => v r - Rlc.ext x r) (fun w => i w - named circ nv (Rlc.ext x) w) := by
    refine ⟨by simp only [hvi.ground, o1.ground, sub_zero], fun r hr0 hr => ?_, fun e hme hv => ?_⟩
    · have a := hvi.node r hr0 hr
      have b := o1.node r hr0 hr
      have c := leaving_sub 1 1 v (Rlc.ext x) i (named circ nv (Rlc.ext x)) circ r
      rw [a, b] at c
      simpa using c
    · have a := hvi.branch e hme hv
      have b := o1.branch e hme hv
      have c := law_sub 1 1 v (Rlc.ext x) i (named circ nv (Rlc.ext x)) e
      rw [a, b] at c
      simpa using c
  obtain ⟨a, b⟩ := (C171_regular hnv hu he hp h hm).1 h0 _ _ diff
  exact ⟨fun r hr => sub_eq_zero.1 (a r hr), fun e hme hv => sub_eq_zero.1 (b e hme hv)⟩


/-! ### Replacing a part of a circuit -/

omit [LinearOrder K] [IsStrictOrderedRing K] in
/-- the part `A` at the end of the circuit is replaced by `B` -/
theorem replace {nv nA nB : Nat} (hnv : 0 < nv) (hA : nv ≤ nA) {C A B : List (Elem K)} (he : ∀ e ∈ C, NodesLt nv e)
    {t : K} {v v' : Nat → K} {i i' : List Char → K} (ho : Obeys (C ++ A) nA t v i) (hv : ∀ r, r < nv → v' r = v r)
    (hi : ∀ e ∈ C, e.vde = true → i' (upper e.id) = i (upper e.id))
    (hs : ∀ e ∈ C, ∀ id a b src k, (e = .F id a b src k ∨ e = .H id a b src k) → i' (upper src) = i (upper src))
    (h1 : ∀ r, 0 < r → r < nv → leaving t v' i' B r = leaving t v i A r)
    (h2 : ∀ r, nv ≤ r → r < nB → leaving t v' i' B r = 0)
    (h3 : ∀ e ∈ B, e.vde = true → lawOf t v' i' e = 0) : Obeys (C ++ B) nB t v' i' := by
  refine ⟨by rw [hv 0 hnv]; exact ho.ground, fun r h0 hr => ?_, fun e hm hvd => ?_⟩
  · rw [leaving_append]
    by_cases hlt : r < nv
    · rw [h1 r h0 hlt, leaving_congr t he hv hi hs, ← leaving_append]
      exact ho.node r h0 (by omega)
    · rw [leaving_new t v' i' he hnv r (by omega), h2 r (by omega) hr, add_zero]
  · rcases List.mem_append.1 hm with hm | hm
    · rw [law_congr t (he e hm) hv (hs e hm)]
      exact ho.branch e (List.mem_append_left _ hm) hvd
    · exact h3 e hm hvd

/-- a circuit that `op_analysis` can solve, with the tolerances of `o` -/
structure Ready (circ : List (Elem K)) (nv m : Nat) (s : Sys K) (gmin : K) : Prop where
  pos : 0 < nv
  unique : UniqueVde circ
  nodes : ∀ e ∈ circ, NodesLt nv e
  proper : ∀ e ∈ circ, Proper e
  gen : generate circ nv = .ok s
  size : s.size = m + 1
  det : (reduce m s.M).det ≠ 0
  detG : (reduce m s.M + Op.gminMat (nv - 1) gmin).det ≠ 0

/-- the voltages and currents that `op_analysis` reports for the circuit: voltage by node, current by name -/
def Reports (o : Op.OOpts K) (gmin : K) (circ : List (Elem K)) (nv m : Nat) (s : Sys K) (v : Nat → K) (i : List Char → K) :
    Prop :=
  ∃ x : Fin m → K, (∀ x0, Op.opAnalysis o (opCirc m nv s) gmin x0 = some (some ⟨x, 0⟩)) ∧
    (∀ r, r < nv → v r = Rlc.ext x r) ∧
    ∀ e ∈ circ, e.vde = true → i (upper e.id) = Rlc.ext x (nv + branchOf circ e.id)

/-- C171: what `op_analysis` reports obeys the laws, and whatever obeys the laws is what it reports -/
theorem C171_reports {circ : List (Elem K)} {nv m : Nat} {s : Sys K} {gmin : K} (hr : Ready circ nv m s gmin)
    {o : Op.OOpts K} (ho : Op.Plain o) (hstd : o.meth.std = true) :
    (∃ v i, Reports o gmin circ nv m s v i ∧ Obeys circ nv 1 v i) ∧
    ∀ v i, Obeys circ nv 1 v i → Reports o gmin circ nv m s v i := by
  have key := fun x0 => C171_op hr.pos hr.unique hr.nodes hr.proper hr.gen hr.size ho hstd gmin hr.det hr.detG x0
  obtain ⟨x, e1, e2, e3⟩ := key none
  have all : ∀ x0, Op.opAnalysis o (opCirc m nv s) gmin x0 = some (some ⟨x, 0⟩) := by
    intro x0
    obtain ⟨y, f1, f2, f3⟩ := key x0
    rw [f1]
    have hsz := (generate_row (fun _ => 0) hr.nodes hr.proper hr.gen).1
    have : y = x := by
      obtain ⟨a, b⟩ := f3 _ _ e2
      funext j
      have ex : Rlc.ext x (j.val + 1) = x j := by simp [Rlc.ext, j.isLt]
      have ey : Rlc.ext y (j.val + 1) = y j := by simp [Rlc.ext, j.isLt]
      rw [← ex, ← ey]
      by_cases hj : j.val + 1 < nv
      · exact (a _ hj).symm
      · have := hr.size
        have hk : j.val + 1 - nv < (vdes circ).length := by have := j.isLt; omega
        have hme := List.mem_filter.1 (List.getElem_mem hk)
        have := b _ hme.1 hme.2
        rw [named_upper, branchOf_eq hr.unique (List.getElem?_eq_getElem hk)] at this
        rw [show nv + (j.val + 1 - nv) = j.val + 1 by omega] at this
        exact this.symm
    rw [this]
  refine ⟨⟨Rlc.ext x, named circ nv (Rlc.ext x), ⟨x, all, fun _ _ => rfl, fun _ _ _ => rfl⟩, e2⟩, fun v i hvi => ?_⟩
  obtain ⟨a, b⟩ := e3 v i hvi
  exact ⟨x, all, a, b⟩

omit [Field K] [LinearOrder K] [IsStrictOrderedRing K] in
theorem fresh {C A : List (Elem K)} {e : Elem K} (h : UniqueVde (C ++ A)) (hA : e ∈ A) (hv : e.vde = true) :
    ∀ f ∈ C, f.vde = true → upper f.id ≠ upper e.id := by
  intro f hf hfv heq
  unfold UniqueVde vdes at h
  rw [List.filter_append, List.map_append, List.nodup_append] at h
  exact h.2.2 _ (List.mem_map.2 ⟨f, List.mem_filter.2 ⟨hf, hfv⟩, rfl⟩) _
    (List.mem_map.2 ⟨e, List.mem_filter.2 ⟨hA, hv⟩, rfl⟩) heq

omit [LinearOrder K] [IsStrictOrderedRing K] in
theorem fresh_src {C A : List (Elem K)} {e : Elem K} (h : UniqueVde (C ++ A)) (hA : e ∈ A) (hv : e.vde = true)
    (hc : ∀ f ∈ C, CtrlExists C f) :
    ∀ f ∈ C, ∀ id a b src k, (f = .F id a b src k ∨ f = .H id a b src k) → upper src ≠ upper e.id := by
  intro f hf id a b src k hfe
  have := hc f hf
  have ⟨g, hg, hgv, hgs⟩ : ∃ g ∈ C, g.vde = true ∧ upper g.id = upper src := by
    rcases hfe with rfl | rfl <;> exact this
  rw [← hgs]
  exact fresh h hA hv g hg hgv


section
variable {C : List (Elem K)} {nv : Nat} {t : K} {v : Nat → K} {i : List Char → K}

omit [LinearOrder K] [IsStrictOrderedRing K] in
/-- a current source with a resistor beside it becomes a voltage source with a resistor in series -/
theorem thevenin (hnv : 0 < nv) (he : ∀ e ∈ C, NodesLt nv e) {a b : Nat} (ha : a < nv) (hb : b < nv) {r : K} (hr : r ≠ 0)
    {rid iid vid rid' : String} {s s' : Src K} (hs : staticVal s = r * staticVal s')
    (hf : ∀ f ∈ C, f.vde = true → upper f.id ≠ upper vid)
    (hfs : ∀ f ∈ C, ∀ id a b src k, (f = .F id a b src k ∨ f = .H id a b src k) → upper src ≠ upper vid)
    (h : Obeys (C ++ [.R rid a b r, .I iid b a s']) nv t v i) :
    Obeys (C ++ [.V vid nv b s, .R rid' a nv r]) (nv + 1) t (Function.update v nv (v b + t * staticVal s))
      (Function.update i (upper vid) ((v a - v b - t * staticVal s) / r)) := by
  have hu : ∀ x, x < nv → Function.update v nv (v b + t * staticVal s) x = v x := fun x hx =>
    Function.update_of_ne (by omega) _ _
  refine replace hnv le_rfl he h hu (fun e hm hv => Function.update_of_ne (hf e hm hv) _ _)
    (fun e hm id a b src k hh => Function.update_of_ne (hfs e hm id a b src k hh) _ _) (fun x h0 hx => ?_) (fun x h0 hx => ?_)
    (fun e hm hv => ?_)
  · simp only [leaving, List.map_cons, List.map_nil, List.sum_cons, List.sum_nil, cur, term, inj, Function.update_self,
      hu a ha]
    simp only [hs]
    have : x ≠ nv := by omega
    have c : (v a - (v b + t * (r * staticVal s'))) / r = (v a - v b) / r - t * staticVal s' := by field_simp; ring
    have c' : (v a - v b - t * (r * staticVal s')) / r = (v a - v b) / r - t * staticVal s' := by field_simp
    rw [c, c']
    by_cases h1 : x = a <;> by_cases h2 : x = b <;> simp only [h1, h2, this, if_true, if_false] <;> split_ifs <;> ring
  · have : x = nv := by omega
    subst this
    simp only [leaving, List.map_cons, List.map_nil, List.sum_cons, List.sum_nil, cur, term, inj, Function.update_self,
      hu a ha]
    have e1 : ¬ x = a := by omega
    have e2 : ¬ x = b := by omega
    simp [e1, e2]
    ring
  · simp only [List.mem_cons, List.not_mem_nil, or_false] at hm
    rcases hm with rfl | rfl
    · simp only [lawOf, Function.update_self, hu b hb]; ring
    · simp [Elem.vde] at hv

omit [LinearOrder K] [IsStrictOrderedRing K] in
/-- one resistor becomes two in series -/
theorem series (hnv : 0 < nv) (he : ∀ e ∈ C, NodesLt nv e) {a b : Nat} (ha : a < nv) (hb : b < nv) {r1 r2 : K} (h1 : r1 ≠ 0)
    (h2 : r2 ≠ 0) (h12 : r1 + r2 ≠ 0) {rid rid1 rid2 : String} (h : Obeys (C ++ [.R rid a b (r1 + r2)]) nv t v i) :
    Obeys (C ++ [.R rid1 a nv r1, .R rid2 nv b r2]) (nv + 1) t
      (Function.update v nv (v a - r1 * ((v a - v b) / (r1 + r2)))) i := by
  have hu : ∀ x, x < nv → Function.update v nv (v a - r1 * ((v a - v b) / (r1 + r2))) x = v x := fun x hx =>
    Function.update_of_ne (by omega) _ _
  have c1 : (v a - (v a - r1 * ((v a - v b) / (r1 + r2)))) / r1 = (v a - v b) / (r1 + r2) := by field_simp; ring
  have c2 : ((v a - r1 * ((v a - v b) / (r1 + r2))) - v b) / r2 = (v a - v b) / (r1 + r2) := by field_simp; ring
  refine replace hnv le_rfl he h hu (fun _ _ _ => rfl) (fun _ _ _ _ _ _ _ _ => rfl) (fun x h0 hx => ?_) (fun x h0 hx => ?_)
    (fun e hm hv => ?_)
  · simp only [leaving, List.map_cons, List.map_nil, List.sum_cons, List.sum_nil, cur, term, inj, Function.update_self,
      hu a ha, hu b hb, c1, c2]
    have : x ≠ nv := by omega
    simp only [this, if_false]
    ring
  · have : x = nv := by omega
    subst this
    simp only [leaving, List.map_cons, List.map_nil, List.sum_cons, List.sum_nil, cur, term, inj, Function.update_self,
      hu a ha, hu b hb, c1, c2]
    have e1 : ¬ x = a := by omega
    have e2 : ¬ x = b := by omega
    simp [e1, e2]
  · simp only [List.mem_cons, List.not_mem_nil, or_false] at hm
    rcases hm with rfl | rfl <;> simp [Elem.vde] at hv

omit [LinearOrder K] [IsStrictOrderedRing K] in
/-- two resistors in parallel become one -/
theorem parallel (hnv : 0 < nv) (he : ∀ e ∈ C, NodesLt nv e) {a b : Nat} {r1 r2 : K} (h1 : r1 ≠ 0)
    (h2 : r2 ≠ 0) {rid rid1 rid2 : String} (h : Obeys (C ++ [.R rid1 a b r1, .R rid2 a b r2]) nv t v i) :
    Obeys (C ++ [.R rid a b (r1 * r2 / (r1 + r2))]) nv t v i := by
  have c1 : (v a - v b) / (r1 * r2 / (r1 + r2)) = (v a - v b) / r1 + (v a - v b) / r2 := by field_simp; ring
  refine replace hnv le_rfl he h (fun _ _ => rfl) (fun _ _ _ => rfl) (fun _ _ _ _ _ _ _ _ => rfl) (fun x h0 hx => ?_)
    (fun x h0 hx => by omega) (fun e hm hv => ?_)
  · simp only [leaving, List.map_cons, List.map_nil, List.sum_cons, List.sum_nil, cur, term, inj, c1]
    by_cases h1 : x = a <;> by_cases h2 : x = b <;> simp [h1, h2] <;> split_ifs <;> ring
  · simp only [List.mem_cons, List.not_mem_nil, or_false] at hm
    subst hm; simp [Elem.vde] at hv

omit [LinearOrder K] [IsStrictOrderedRing K] in
/-- a voltage source of 0 V in series with a resistor does not change anything, and its current is that of the resistor -/
theorem ammeter (hnv : 0 < nv) (he : ∀ e ∈ C, NodesLt nv e) {a b : Nat} (ha : a < nv) (hb : b < nv) {r : K}
    {rid vid : String} {s : Src K} (hs : staticVal s = 0)
    (hf : ∀ f ∈ C, f.vde = true → upper f.id ≠ upper vid)
    (hfs : ∀ f ∈ C, ∀ id a b src k, (f = .F id a b src k ∨ f = .H id a b src k) → upper src ≠ upper vid)
    (h : Obeys (C ++ [.R rid a b r]) nv t v i) :
    Obeys (C ++ [.V vid a nv s, .R rid nv b r]) (nv + 1) t (Function.update v nv (v a))
      (Function.update i (upper vid) ((v a - v b) / r)) := by
  have hu : ∀ x, x < nv → Function.update v nv (v a) x = v x := fun x hx => Function.update_of_ne (by omega) _ _
  refine replace hnv le_rfl he h hu (fun e hm hv => Function.update_of_ne (hf e hm hv) _ _)
    (fun e hm id a b src k hh => Function.update_of_ne (hfs e hm id a b src k hh) _ _) (fun x h0 hx => ?_) (fun x h0 hx => ?_)
    (fun e hm hv => ?_)
  · simp only [leaving, List.map_cons, List.map_nil, List.sum_cons, List.sum_nil, cur, term, inj, Function.update_self,
      hu b hb]
    have : x ≠ nv := by omega
    simp only [this, if_false]
    ring
  · have : x = nv := by omega
    subst this
    simp only [leaving, List.map_cons, List.map_nil, List.sum_cons, List.sum_nil, cur, term, inj, Function.update_self,
      hu b hb]
    have e1 : ¬ x = a := by omega
    have e2 : ¬ x = b := by omega
    simp [e1, e2]
  · simp only [List.mem_cons, List.not_mem_nil, or_false] at hm
    rcases hm with rfl | rfl
    · simp only [lawOf, Function.update_self, hu a ha, hs]; ring
    · simp [Elem.vde] at hv

omit [LinearOrder K] [IsStrictOrderedRing K] in
/-- a voltage source may be replaced by a current source that carries the same current -/
theorem substitution (hnv : 0 < nv) (he : ∀ e ∈ C, NodesLt nv e) {a b : Nat}
    {vid iid : String} {s s' : Src K} (hs : t * staticVal s' = i (upper vid))
    (h : Obeys (C ++ [.V vid a b s]) nv t v i) : Obeys (C ++ [.I iid a b s']) nv t v i := by
  refine replace hnv le_rfl he h (fun _ _ => rfl) (fun _ _ _ => rfl) (fun _ _ _ _ _ _ _ _ => rfl) (fun x h0 hx => ?_)
    (fun x h0 hx => by omega) (fun e hm hv => ?_)
  · simp only [leaving, List.map_cons, List.map_nil, List.sum_cons, List.sum_nil, cur, term, hs]
  · simp only [List.mem_cons, List.not_mem_nil, or_false] at hm
    subst hm; simp [Elem.vde] at hv

omit [LinearOrder K] [IsStrictOrderedRing K] in
/-- an inductor is a source of 0 V -/
theorem short (hnv : 0 < nv) (he : ∀ e ∈ C, NodesLt nv e) {a b : Nat}
    {id : String} {l : K} {ic : Option K} {cp : List (Coupling K)} {s : Src K} (hs : staticVal s = 0)
    (h : Obeys (C ++ [.V id a b s]) nv t v i) : Obeys (C ++ [.L id a b l ic cp]) nv t v i := by
  refine replace hnv le_rfl he h (fun _ _ => rfl) (fun _ _ _ => rfl) (fun _ _ _ _ _ _ _ _ => rfl) (fun x h0 hx => ?_)
    (fun x h0 hx => by omega) (fun e hm hv => ?_)
  · simp only [leaving, List.map_cons, List.map_nil, List.sum_cons, List.sum_nil, cur, term]
  · simp only [List.mem_cons, List.not_mem_nil, or_false] at hm
    subst hm
    have := h.branch (.V id a b s) (by simp) rfl
    simpa [lawOf, hs] using this

/-- an element that carries no current whatever the voltages are -/
def Idle : Elem K → Prop
  | .C .. => True
  | .K _ => True
  | .I _ _ _ s => staticVal s = 0
  | .G _ _ _ _ _ k => k = 0
  | .F _ _ _ _ k => k = 0
  | .R _ a b _ => a = b
  | _ => False

omit [LinearOrder K] [IsStrictOrderedRing K] in
theorem idle (hnv : 0 < nv) (he : ∀ e ∈ C, NodesLt nv e) {e : Elem K} (hi : Idle e)
    (h : Obeys C nv t v i) : Obeys (C ++ [e]) nv t v i := by
  rw [← List.append_nil C] at h
  refine replace hnv le_rfl he h (fun _ _ => rfl) (fun _ _ _ => rfl) (fun _ _ _ _ _ _ _ _ => rfl) (fun x h0 hx => ?_)
    (fun x h0 hx => by omega) (fun e hm hv => ?_)
  · simp only [leaving, List.map_cons, List.map_nil, List.sum_cons, List.sum_nil]
    rw [add_zero]
    by_cases hz : cur t v i e = 0
    · rw [hz, inj_zero]
    · cases e <;> simp only [Idle] at hi <;> simp [cur, hi] at hz
  · simp only [List.mem_cons, List.not_mem_nil, or_false] at hm
    subst hm
    cases e <;> simp [Idle, Elem.vde] at hi hv
end


/-! ### The operating points of equivalent circuits -/

/-- the same voltages at the nodes of `C` and the same currents in the elements of `C` -/
def SameOn (C : List (Elem K)) (nv : Nat) (v v' : Nat → K) (i i' : List Char → K) : Prop :=
  (∀ r, r < nv → v' r = v r) ∧ ∀ e ∈ C, e.vde = true → i' (upper e.id) = i (upper e.id)

omit [Field K] [LinearOrder K] [IsStrictOrderedRing K] in
theorem ctrl_left {C A : List (Elem K)} (hA : ∀ e ∈ A, e.vde = false) (h : ∀ e ∈ C ++ A, CtrlExists (C ++ A) e) :
    ∀ e ∈ C, CtrlExists C e := by
  intro e he
  have := h e (List.mem_append_left _ he)
  cases e <;> simp only [CtrlExists] at this ⊢
  all_goals
    obtain ⟨g, hg, hv, hs⟩ := this
    rcases List.mem_append.1 hg with hg | hg
    · exact ⟨g, hg, hv, hs⟩
    · rw [hA g hg] at hv; cases hv

section
variable {C : List (Elem K)} {nv m m' : Nat} {s s' : Sys K} {gmin : K} {o : Op.OOpts K}

omit [LinearOrder K] [IsStrictOrderedRing K] in
theorem Ready.ctrl {circ : List (Elem K)} (h : Ready circ nv m s gmin) : ∀ e ∈ circ, CtrlExists circ e :=
  ((C07_assembly_succeeds_iff circ nv).1 ⟨s, h.gen⟩).2.1

/-- C171: Thevenin's and Norton's source are equivalent: a current source of `J` beside a resistor `r` gives the same
operating point as a voltage source of `r J` in series with it. -/
theorem C171_thevenin (ho : Op.Plain o) (hstd : o.meth.std = true) {a b : Nat} {r : K} {rid iid vid rid' : String}
    {u w : Src K} (hr : r ≠ 0) (hs : staticVal u = r * staticVal w) (hC : ∀ e ∈ C, NodesLt nv e)
    (hA : Ready (C ++ [.R rid a b r, .I iid b a w]) nv m s gmin)
    (hB : Ready (C ++ [.V vid nv b u, .R rid' a nv r]) (nv + 1) m' s' gmin) :
    ∃ v v' i i', Reports o gmin (C ++ [.R rid a b r, .I iid b a w]) nv m s v i ∧
      Reports o gmin (C ++ [.V vid nv b u, .R rid' a nv r]) (nv + 1) m' s' v' i' ∧ SameOn C nv v v' i i' := by
  obtain ⟨⟨v, i, r1, o1⟩, -⟩ := C171_reports hA ho hstd
  have hn : NodesLt nv (.R rid a b r) := hA.nodes _ (by simp)
  have hf := fresh (e := .V vid nv b u) hB.unique (by simp) rfl
  have hfs := fresh_src (e := .V vid nv b u) hB.unique (by simp) rfl (ctrl_left (by simp [Elem.vde]) hA.ctrl)
  have o2 := thevenin (rid' := rid') hA.pos hC hn.1 hn.2 hr hs hf hfs o1
  exact ⟨v, _, i, _, r1, (C171_reports hB ho hstd).2 _ _ o2, fun x hx => Function.update_of_ne (by omega) _ _,
    fun e hm hv => Function.update_of_ne (hf e hm hv) _ _⟩

/-- C171: two resistors in series are one resistor. -/
theorem C171_series (ho : Op.Plain o) (hstd : o.meth.std = true) {a b : Nat} {r1 r2 : K} {rid rid1 rid2 : String}
    (h1 : r1 ≠ 0) (h2 : r2 ≠ 0) (h12 : r1 + r2 ≠ 0) (hC : ∀ e ∈ C, NodesLt nv e)
    (hA : Ready (C ++ [.R rid a b (r1 + r2)]) nv m s gmin)
    (hB : Ready (C ++ [.R rid1 a nv r1, .R rid2 nv b r2]) (nv + 1) m' s' gmin) :
    ∃ v v' i i', Reports o gmin (C ++ [.R rid a b (r1 + r2)]) nv m s v i ∧
      Reports o gmin (C ++ [.R rid1 a nv r1, .R rid2 nv b r2]) (nv + 1) m' s' v' i' ∧ SameOn C nv v v' i i' ∧
      v' nv = v a - r1 * ((v a - v b) / (r1 + r2)) := by
  obtain ⟨⟨v, i, q, o1⟩, -⟩ := C171_reports hA ho hstd
  have hn : NodesLt nv (.R rid a b (r1 + r2)) := hA.nodes _ (by simp)
  have o2 := series (rid1 := rid1) (rid2 := rid2) hA.pos hC hn.1 hn.2 h1 h2 h12 o1
  exact ⟨v, _, i, _, q, (C171_reports hB ho hstd).2 _ _ o2, ⟨fun x hx => Function.update_of_ne (by omega) _ _,
    fun e hm hv => rfl⟩, Function.update_self ..⟩

/-- C171: two resistors in parallel are one resistor. -/
theorem C171_parallel (ho : Op.Plain o) (hstd : o.meth.std = true) {a b : Nat} {r1 r2 : K} {rid rid1 rid2 : String}
    (h1 : r1 ≠ 0) (h2 : r2 ≠ 0) (hC : ∀ e ∈ C, NodesLt nv e)
    (hA : Ready (C ++ [.R rid1 a b r1, .R rid2 a b r2]) nv m s gmin)
    (hB : Ready (C ++ [.R rid a b (r1 * r2 / (r1 + r2))]) nv m' s' gmin) :
    ∃ v i, Reports o gmin (C ++ [.R rid1 a b r1, .R rid2 a b r2]) nv m s v i ∧
      Reports o gmin (C ++ [.R rid a b (r1 * r2 / (r1 + r2))]) nv m' s' v i := by
  obtain ⟨⟨v, i, q, o1⟩, -⟩ := C171_reports hA ho hstd
  exact ⟨v, i, q, (C171_reports hB ho hstd).2 _ _ (parallel hA.pos hC h1 h2 o1)⟩

/-- C171: a voltage source of 0 V put in series with a resistor changes nothing and its current is that of the resistor. -/
theorem C171_ammeter (ho : Op.Plain o) (hstd : o.meth.std = true) {a b : Nat} {r : K} {rid vid : String} {u : Src K}
    (hs : staticVal u = 0) (hC : ∀ e ∈ C, NodesLt nv e) (hA : Ready (C ++ [.R rid a b r]) nv m s gmin)
    (hB : Ready (C ++ [.V vid a nv u, .R rid nv b r]) (nv + 1) m' s' gmin) :
    ∃ v v' i i', Reports o gmin (C ++ [.R rid a b r]) nv m s v i ∧
      Reports o gmin (C ++ [.V vid a nv u, .R rid nv b r]) (nv + 1) m' s' v' i' ∧ SameOn C nv v v' i i' ∧
      i' (upper vid) = (v a - v b) / r := by
  obtain ⟨⟨v, i, q, o1⟩, -⟩ := C171_reports hA ho hstd
  have hn : NodesLt nv (.R rid a b r) := hA.nodes _ (by simp)
  have hf := fresh (e := .V vid a nv u) hB.unique (by simp) rfl
  have hfs := fresh_src (e := .V vid a nv u) hB.unique (by simp) rfl (ctrl_left (by simp [Elem.vde]) hA.ctrl)
  have o2 := ammeter hA.pos hC hn.1 hn.2 hs hf hfs o1
  exact ⟨v, _, i, _, q, (C171_reports hB ho hstd).2 _ _ o2, ⟨fun x hx => Function.update_of_ne (by omega) _ _,
    fun e hm hv => Function.update_of_ne (hf e hm hv) _ _⟩, Function.update_self ..⟩

/-- C171: a voltage source may be replaced by a current source that carries the current reported for it. -/
theorem C171_substitution (ho : Op.Plain o) (hstd : o.meth.std = true) {a b : Nat} {vid iid : String} {u w : Src K}
    (hC : ∀ e ∈ C, NodesLt nv e) (hA : Ready (C ++ [.V vid a b u]) nv m s gmin)
    (hB : Ready (C ++ [.I iid a b w]) nv m' s' gmin) {v : Nat → K} {i : List Char → K}
    (h : Reports o gmin (C ++ [.V vid a b u]) nv m s v i) (hw : staticVal w = i (upper vid)) :
    ∃ v' i', Reports o gmin (C ++ [.I iid a b w]) nv m' s' v' i' ∧ SameOn C nv v v' i i' := by
  obtain ⟨⟨v1, i1, q, o1⟩, -⟩ := C171_reports hA ho hstd
  obtain ⟨x, a1, a2, a3⟩ := h
  obtain ⟨y, b1, b2, b3⟩ := q
  have : x = y := by
    have := (a1 none).symm.trans (b1 none)
    simpa using this
  subst this
  have hw' : (1 : K) * staticVal w = i1 (upper vid) := by
    rw [one_mul, hw]
    exact (a3 (.V vid a b u) (by simp) rfl).trans (b3 (.V vid a b u) (by simp) rfl).symm
  refine ⟨v1, i1, (C171_reports hB ho hstd).2 _ _ (substitution hA.pos hC hw' o1), fun r hr => ?_, fun e he hv => ?_⟩
  · rw [a2 r hr, b2 r hr]
  · rw [a3 e (List.mem_append_left _ he) hv, b3 e (List.mem_append_left _ he) hv]

/-- C171: at the operating point an inductor is a source of 0 V. -/
theorem C171_inductor (ho : Op.Plain o) (hstd : o.meth.std = true) {a b : Nat} {id : String} {l : K} {ic : Option K}
    {cp : List (Coupling K)} {u : Src K} (hs : staticVal u = 0) (hC : ∀ e ∈ C, NodesLt nv e)
    (hA : Ready (C ++ [.V id a b u]) nv m s gmin) (hB : Ready (C ++ [.L id a b l ic cp]) nv m' s' gmin) :
    ∃ v i, Reports o gmin (C ++ [.V id a b u]) nv m s v i ∧ Reports o gmin (C ++ [.L id a b l ic cp]) nv m' s' v i := by
  obtain ⟨⟨v, i, q, o1⟩, -⟩ := C171_reports hA ho hstd
  exact ⟨v, i, q, (C171_reports hB ho hstd).2 _ _ (short hA.pos hC hs o1)⟩

/-- C171: a capacitor, a current source of 0 A, a controlled current source of gain 0 and a resistor with both ends at one
node change nothing. -/
theorem C171_idle (ho : Op.Plain o) (hstd : o.meth.std = true) {e : Elem K} (hi : Idle e)
    (hA : Ready C nv m s gmin) (hB : Ready (C ++ [e]) nv m' s' gmin) :
    ∃ v i, Reports o gmin C nv m s v i ∧ Reports o gmin (C ++ [e]) nv m' s' v i := by
  obtain ⟨⟨v, i, q, o1⟩, -⟩ := C171_reports hA ho hstd
  exact ⟨v, i, q, (C171_reports hB ho hstd).2 _ _ (idle hA.pos hA.nodes hi o1)⟩
end

end

/-! ### Examples -/

open Verif.Bound

/-- the rest of the circuits: a load -/
def load : List (Elem ℚ) := [.R "R2" 1 0 2]

/-- a current source of 3 A beside 1 Ω, and a voltage source of 3 V in series with 1 Ω: hypotheses of `C171_thevenin` -/
def norton : List (Elem ℚ) := load ++ [.R "R1" 1 0 1, .I "I1" 0 1 { dc := some 3 }]
def thev : List (Elem ℚ) := load ++ [.V "V1" 2 0 { dc := some 3 }, .R "R1" 1 2 1]

example : Ready norton 2 1 (sysOf norton 2) (1 / 1000) where
  pos := by decide
  unique := by unfold UniqueVde; decide +kernel
  nodes := by simp [norton, load, NodesLt]
  proper := by simp [norton, load, Proper]
  gen := rfl
  size := rfl
  det := by simp only [Matrix.det_fin_one]; decide +kernel
  detG := by simp only [Matrix.det_fin_one]; decide +kernel

example : Ready thev 3 3 (sysOf thev 3) (1 / 1000) where
  pos := by decide
  unique := by unfold UniqueVde; decide +kernel
  nodes := by simp [thev, load, NodesLt]
  proper := by simp [thev, load, Proper]
  gen := rfl
  size := rfl
  det := by simp only [Matrix.det_fin_three]; decide +kernel
  detG := by simp only [Matrix.det_fin_three]; decide +kernel

/-- both have 2 V at node 1 -/
example : Obeys norton 2 1 (fun r => if r = 1 then 2 else 0) (fun _ => 0) ∧
    Obeys thev 3 1 (fun r => if r = 1 then 2 else if r = 2 then 3 else 0) (fun _ => -1) := by
  constructor
  · refine ⟨rfl, fun r h0 hr => ?_, fun e he hv => ?_⟩
    · have : r = 1 := by omega
      subst this; decide +kernel
    · simp [norton, load] at he
      rcases he with rfl | rfl | rfl <;> simp [Elem.vde] at hv
  · refine ⟨rfl, fun r h0 hr => ?_, fun e he hv => ?_⟩
    · have : r = 1 ∨ r = 2 := by omega
      rcases this with rfl | rfl <;> decide +kernel
    · simp [thev, load] at he
      rcases he with rfl | rfl | rfl <;> simp [Elem.vde] at hv
      decide +kernel

/-- hypotheses of `C171_series`, `C171_ammeter`: with a dependent source in the rest of the circuit -/
def rest : List (Elem ℚ) := [.I "I1" 0 1 { dc := some 3 }, .G "G1" 1 0 1 0 (1 / 4)]

example : (∀ e ∈ rest, NodesLt 2 e) ∧ Ready (rest ++ [.R "R1" 1 0 (2 + 3)]) 2 1 (sysOf (rest ++ [.R "R1" 1 0 (2 + 3)]) 2) (1 / 1000) ∧
    Ready (rest ++ [.R "RA" 1 2 2, .R "RB" 2 0 3]) 3 2 (sysOf (rest ++ [.R "RA" 1 2 2, .R "RB" 2 0 3]) 3) (1 / 1000) ∧
    Ready (rest ++ [.V "VA" 1 2 { dc := some 0 }, .R "R1" 2 0 5]) 3 3
      (sysOf (rest ++ [.V "VA" 1 2 { dc := some 0 }, .R "R1" 2 0 5]) 3) (1 / 1000) := by
  refine ⟨by simp [rest, NodesLt], ?_, ?_, ?_⟩
  · exact ⟨by decide, by unfold UniqueVde; decide +kernel, by simp [rest, NodesLt], by simp [rest, Proper], rfl, rfl,
      by simp only [Matrix.det_fin_one]; decide +kernel, by simp only [Matrix.det_fin_one]; decide +kernel⟩
  · exact ⟨by decide, by unfold UniqueVde; decide +kernel, by simp [rest, NodesLt], by simp [rest, Proper], rfl, rfl,
      by simp only [Matrix.det_fin_two]; decide +kernel, by simp only [Matrix.det_fin_two]; decide +kernel⟩
  · exact ⟨by decide, by unfold UniqueVde; decide +kernel, by simp [rest, NodesLt], by simp [rest, Proper], rfl, rfl,
      by simp only [Matrix.det_fin_three]; decide +kernel, by simp only [Matrix.det_fin_three]; decide +kernel⟩

/-- hypotheses of `C171_substitution`, `C171_inductor` and `C171_idle` -/
example : Ready (rest ++ [.V "V1" 1 0 { dc := some 6 }]) 2 2 (sysOf (rest ++ [.V "V1" 1 0 { dc := some 6 }]) 2) (1 / 1000) ∧
    Ready (rest ++ [.I "I2" 1 0 { dc := some (3 / 2) }]) 2 1 (sysOf (rest ++ [.I "I2" 1 0 { dc := some (3 / 2) }]) 2) (1 / 1000) ∧
    Ready (rest ++ [.L "L1" 1 0 7 none []]) 2 2 (sysOf (rest ++ [.L "L1" 1 0 7 none []]) 2) (1 / 1000) ∧
    Ready rest 2 1 (sysOf rest 2) (1 / 1000) ∧ Ready (rest ++ [.C "C1" 1 0 5 none]) 2 1 (sysOf (rest ++ [.C "C1" 1 0 5 none]) 2) (1 / 1000) ∧
    (∃ i : List Char → ℚ, Obeys (rest ++ [.V "V1" 1 0 { dc := some 6 }]) 2 1 (fun r => if r = 1 then 6 else 0) i ∧
      i (upper "V1") = 3 / 2) := by
  refine ⟨?_, ?_, ?_, ?_, ?_, ?_⟩
  · exact ⟨by decide, by unfold UniqueVde; decide +kernel, by simp [rest, NodesLt], by simp [rest, Proper], rfl, rfl,
      by simp only [Matrix.det_fin_two]; decide +kernel, by simp only [Matrix.det_fin_two]; decide +kernel⟩
  · exact ⟨by decide, by unfold UniqueVde; decide +kernel, by simp [rest, NodesLt], by simp [rest, Proper], rfl, rfl,
      by simp only [Matrix.det_fin_one]; decide +kernel, by simp only [Matrix.det_fin_one]; decide +kernel⟩
  · exact ⟨by decide, by unfold UniqueVde; decide +kernel, by simp [rest, NodesLt], by simp [rest, Proper], rfl, rfl,
      by simp only [Matrix.det_fin_two]; decide +kernel, by simp only [Matrix.det_fin_two]; decide +kernel⟩
  · exact ⟨by decide, by unfold UniqueVde; decide +kernel, by simp [rest, NodesLt], by simp [rest, Proper], rfl, rfl,
      by simp only [Matrix.det_fin_one]; decide +kernel, by simp only [Matrix.det_fin_one]; decide +kernel⟩
  · exact ⟨by decide, by unfold UniqueVde; decide +kernel, by simp [rest, NodesLt], by simp [rest, Proper], rfl, rfl,
      by simp only [Matrix.det_fin_one]; decide +kernel, by simp only [Matrix.det_fin_one]; decide +kernel⟩
  · refine ⟨fun _ => 3 / 2, ⟨rfl, fun r h0 hr => ?_, fun e he hv => ?_⟩, rfl⟩
    · have : r = 1 := by omega
      subst this; decide +kernel
    · simp [rest] at he
      rcases he with rfl | rfl | rfl <;> simp [Elem.vde] at hv
      decide +kernel

end Verif.Laws
