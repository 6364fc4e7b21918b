import Verif.Props.Imp
import Verif.Props.MnaOrder

/-!
Property C170: what the analyses find does not depend on the numbers of the nodes, that is, on the order in which the
nodes are mentioned first.
-/

namespace Verif.Rename
open Verif.Circuit Verif.Mna Verif.Dyn Verif.Scale Verif.Imp

section
variable {α : Type} [Field α]

/-- the element between other nodes -/
def rename (p : Nat → Nat) : Elem α → Elem α
  | .R id a b v => .R id (p a) (p b) v
  | .C id a b v ic => .C id (p a) (p b) v ic
  | .L id a b v ic coup => .L id (p a) (p b) v ic coup
  | .K c => .K c
  | .V id a b src => .V id (p a) (p b) src
  | .I id a b src => .I id (p a) (p b) src
  | .E id a b c d v => .E id (p a) (p b) (p c) (p d) v
  | .G id a b c d v => .G id (p a) (p b) (p c) (p d) v
  | .F id a b src v => .F id (p a) (p b) src v
  | .H id a b src v => .H id (p a) (p b) src v
  | .NL id a b sense ports oports => .NL id (p a) (p b) (sense.map fun q => (p q.1, p q.2))
      (ports.map fun q => (p q.1, p q.2)) (oports.map fun q => (p q.1, p q.2))

/-- the numbers of the nodes change, those of the branches do not -/
structure Renumbers (nv : Nat) (p : Equiv.Perm Nat) : Prop where
  zero : p 0 = 0
  high : ∀ i, nv ≤ i → p i = i

theorem Renumbers.lt {nv : Nat} {p : Equiv.Perm Nat} (h : Renumbers nv p) (i : Nat) : p i < nv ↔ i < nv := by
  constructor
  · intro hi
    by_contra hc
    rw [h.high i (Nat.not_lt.1 hc)] at hi
    exact hc hi
  · intro hi
    by_contra hc
    have := h.high (p i) (Nat.not_lt.1 hc)
    have := p.injective this
    omega

theorem Renumbers.symm {nv : Nat} {p : Equiv.Perm Nat} (h : Renumbers nv p) : Renumbers nv p.symm :=
  ⟨by rw [Equiv.symm_apply_eq, h.zero], fun i hi => by rw [Equiv.symm_apply_eq, h.high i hi]⟩

def permM (p : Equiv.Perm Nat) (M : Mat α) : Mat α := fun i j => M (p.symm i) (p.symm j)
def permV (p : Equiv.Perm Nat) (N : Vec α) : Vec α := fun i => N (p.symm i)
def permS (p : Equiv.Perm Nat) (s : Sys α) : Sys α := ⟨s.size, permM p s.M, permV p s.N⟩

omit [Field α] in
theorem put_perm (p : Equiv.Perm Nat) (M : Mat α) (i j : Nat) (v : α) :
    (permM p M).put (p i) (p j) v = permM p (M.put i j v) := by
  funext a b
  simp only [permM, Mat.put, Equiv.symm_apply_eq]

theorem add_perm (p : Equiv.Perm Nat) (M : Mat α) (i j : Nat) (v : α) :
    (permM p M).add (p i) (p j) v = permM p (M.add i j v) := by
  unfold Mat.add
  rw [show permM p M (p i) (p j) = M i j by simp [permM], put_perm]

omit [Field α] in
theorem putV_perm (p : Equiv.Perm Nat) (N : Vec α) (i : Nat) (v : α) :
    Vec.put (permV p N) (p i) v = permV p (Vec.put N i v) := by
  funext a
  simp only [permV, Vec.put, Equiv.symm_apply_eq]

theorem addV_perm (p : Equiv.Perm Nat) (N : Vec α) (i : Nat) (v : α) :
    Vec.add (permV p N) (p i) v = permV p (Vec.add N i v) := by
  unfold Vec.add
  rw [show permV p N (p i) = N i by simp [permV], putV_perm]

omit [Field α] in
theorem rename_vde (p : Nat → Nat) (e : Elem α) : (rename p e).vde = e.vde := by cases e <;> rfl
omit [Field α] in
theorem rename_id (p : Nat → Nat) (e : Elem α) : (rename p e).id = e.id := by cases e <;> rfl

omit [Field α] in
theorem find_rename (p : Nat → Nat) (circ : List (Elem α)) (s : String) :
    findVdeIndex (circ.map (rename p)) s = findVdeIndex circ s := by
  unfold findVdeIndex
  generalize 0 = n
  induction circ generalizing n with
  | nil => rfl
  | cons e r ih => simp only [List.map_cons, findVdeIndexAux, rename_vde, rename_id, ih]

theorem stamp1_rename (p : Equiv.Perm Nat) (s : Sys α) (e : Elem α) :
    stamp1 (permS p s) (rename p e) = (stamp1 s e).map (permS p) := by
  cases e with
  | R id a b v => simp only [rename, stamp1, Except.map, permS, add_perm]
  | G id a b c d v => simp only [rename, stamp1, Except.map, permS, add_perm]
  | I id a b src =>
    simp only [rename, stamp1]
    split
    · rfl
    · cases src.eval none with
      | none => rfl
      | some i => simp only [Except.map, permS, addV_perm]
  | _ => rfl

theorem stamp2_rename {p : Equiv.Perm Nat} {nv : Nat} (hp : Renumbers nv p) (circ : List (Elem α)) (s : Sys α)
    (hs : nv ≤ s.size) (e : Elem α) :
    stamp2 (circ.map (rename p)) nv (permS p s) (rename p e) = (stamp2 circ nv s e).map (permS p) := by
  have hz : p s.size = s.size := hp.high _ hs
  have key : ∀ (M : Mat α) (i : Nat) (v : α), (permM p M).put (p i) s.size v = permM p (M.put i s.size v) := by
    intro M i v
    have := put_perm p M i s.size v
    rwa [hz] at this
  have key2 : ∀ (M : Mat α) (i : Nat) (v : α), (permM p M).put s.size (p i) v = permM p (M.put s.size i v) := by
    intro M i v
    have := put_perm p M s.size i v
    rwa [hz] at this
  cases e with
  | V id a b src =>
    simp only [rename, stamp2]
    split
    · simp only [Except.map, permS, key, key2]
    · cases src.eval none with
      | none => rfl
      | some v =>
        simp only [Except.map, permS, key, key2]
        have := putV_perm p s.N s.size (-v)
        rw [hz] at this
        rw [this]
  | E id a b c d v => simp only [rename, stamp2, Except.map, permS, key, key2]
  | L id a b v ic coup => simp only [rename, stamp2, Except.map, permS, key, key2]
  | H id a b src v =>
    simp only [rename, stamp2, find_rename]
    cases findVdeIndex circ src with
    | error x => rfl
    | ok j =>
      simp only
      by_cases hj : nv + j < s.size + 1
      · have hj' : nv + j < (permS p s).size + 1 := hj
        rw [if_pos hj, if_pos hj']
        simp only [Except.map, permS, key, key2]
        have := key2 ((((s.M.put a s.size 1).put b s.size (-1)).put s.size a 1).put s.size b (-1)) (nv + j) v
        rw [hp.high (nv + j) (by omega)] at this
        rw [this]
      · have hj' : ¬ nv + j < (permS p s).size + 1 := hj
        rw [if_neg hj, if_neg hj']; rfl
  | _ => rfl

theorem stamp3_rename {p : Equiv.Perm Nat} {nv : Nat} (hp : Renumbers nv p) (circ : List (Elem α)) (s : Sys α)
    (e : Elem α) :
    stamp3 (circ.map (rename p)) nv (permS p s) (rename p e) = (stamp3 circ nv s e).map (permS p) := by
  cases e with
  | F id a b src v =>
    simp only [rename, stamp3, find_rename]
    cases findVdeIndex circ src with
    | error x => rfl
    | ok j =>
      have key : ∀ (M : Mat α) (i : Nat) (v : α), (permM p M).add (p i) (nv + j) v = permM p (M.add i (nv + j) v) := by
        intro M i v
        have := add_perm p M i (nv + j) v
        rwa [hp.high (nv + j) (by omega)] at this
      simp only [Except.map, permS, key]
  | _ => rfl

/-- C170: with other numbers for the nodes, `generate_mna_and_N` returns the same matrix and vector up to the order of
rows and columns, or raises the same exception. -/
theorem C170_static {p : Equiv.Perm Nat} {nv : Nat} (hp : Renumbers nv p) (circ : List (Elem α)) :
    generate (circ.map (rename p)) nv = (generate circ nv).map fun s =>
      ⟨s.size, fun i j => s.M (p.symm i) (p.symm j), fun i => s.N (p.symm i)⟩ := by
  have h1 := loop_inv stamp1 stamp1 (rename p) (permS p) (fun s => nv ≤ s.size) (fun _ => True)
    (fun s e _ _ => stamp1_rename p s e) (fun s e s' hs _ h => by rw [stamp1_size s s' e h]; exact hs)
    (⟨nv, fun _ _ => 0, fun _ => 0⟩ : Sys α) (le_refl nv) circ (fun _ _ => trivial)
  have h0 : permS p (⟨nv, fun _ _ => 0, fun _ => 0⟩ : Sys α) = ⟨nv, fun _ _ => 0, fun _ => 0⟩ := rfl
  rw [h0] at h1
  unfold generate
  rw [h1.1]
  cases hl1 : loop stamp1 (⟨nv, fun _ _ => 0, fun _ => 0⟩ : Sys α) circ with
  | error x => rfl
  | ok s1 =>
    simp only [Except.map]
    have h2 := loop_inv (stamp2 (circ.map (rename p)) nv) (stamp2 circ nv) (rename p) (permS p) (fun s => nv ≤ s.size)
      (fun _ => True) (fun s e hs _ => stamp2_rename hp circ s hs e)
      (fun s e s' hs _ h => le_trans hs (stamp2_size circ nv s s' e h)) s1 (h1.2 s1 hl1) circ (fun _ _ => trivial)
    rw [h2.1]
    cases loop (stamp2 circ nv) s1 circ with
    | error x => rfl
    | ok s2 =>
      simp only [Except.map]
      have h3 := loop_inv (stamp3 (circ.map (rename p)) nv) (stamp3 circ nv) (rename p) (permS p) (fun _ => True)
        (fun _ => True) (fun s e _ _ => stamp3_rename hp circ s e) (fun _ _ _ _ _ _ => trivial) s2 trivial circ
        (fun _ _ => trivial)
      rw [h3.1]
      rfl

theorem dstep_rename {p : Equiv.Perm Nat} {nv : Nat} (hp : Renumbers nv p) (circ : List (Elem α)) (s : DState α)
    (e : Elem α) :
    dStep (circ.map (rename p)) nv ⟨permM p s.D, s.iEq⟩ (rename p e) =
      (dStep circ nv s e).map fun s => ⟨permM p s.D, s.iEq⟩ := by
  cases e with
  | L id n1 n2 v ic coup =>
    have hi : p (nv + s.iEq) = nv + s.iEq := hp.high _ (by omega)
    have key := put_perm p s.D (nv + s.iEq) (nv + s.iEq) (-1 * v)
    rw [hi] at key
    have hl := loop_rel (couplings (circ.map (rename p)) nv (nv + s.iEq) id) (couplings circ nv (nv + s.iEq) id) (fun c => c)
      (permM p) (by
        intro D c
        simp only [couplings, find_rename]
        cases c.other id with
        | error x => rfl
        | ok o =>
          simp only
          cases findVdeIndex circ o with
          | error x => rfl
          | ok j =>
            have := add_perm p D (nv + s.iEq) (nv + j) (-1 * c.M)
            rw [hi, hp.high (nv + j) (by omega)] at this
            simp only [Except.map, this]) (s.D.put (nv + s.iEq) (nv + s.iEq) (-1 * v)) coup
    rw [List.map_id'] at hl
    simp only [rename, dStep, key, hl]
    cases loop (couplings circ nv (nv + s.iEq) id) (s.D.put (nv + s.iEq) (nv + s.iEq) (-1 * v)) coup <;> rfl
  | C id a b v ic => simp only [rename, dStep, Except.map, add_perm]
  | _ => simp [rename, dStep, Except.map, Elem.vde]

theorem iEq_le (circ : List (Elem α)) (nv : Nat) (l : List (Elem α)) (s s' : DState α)
    (h : loop (dStep circ nv) s l = .ok s') : s'.iEq ≤ s.iEq + (vdes l).length := by
  induction l generalizing s with
  | nil => simp only [loop] at h; cases h; omega
  | cons e t ih =>
    simp only [loop] at h
    cases hd : dStep circ nv s e with
    | error x => rw [hd] at h; cases h
    | ok s1 =>
      rw [hd] at h
      have h1 := ih s1 h
      have h2 : s1.iEq = s.iEq + if e.vde then 1 else 0 := by
        cases e with
        | L id n1 n2 v ic coup =>
          simp only [dStep] at hd
          split at hd
          · cases hd; rfl
          · cases hd
        | _ => simp only [dStep, Elem.vde] at hd; cases hd; rfl
      rw [vdes_cons]
      cases hv : e.vde <;> simp [hv] at h2 ⊢ <;> omega

/-- C170: the same for the matrix of the dynamic elements. -/
theorem C170_dynamic {p : Equiv.Perm Nat} {nv : Nat} (hp : Renumbers nv p) (circ : List (Elem α)) (S : Nat) (cmin : α)
    (hS : nv + (vdes circ).length ≤ S) :
    generateD (circ.map (rename p)) nv S cmin = (generateD circ nv S cmin).map fun D =>
      fun i j => D (p.symm i) (p.symm j) := by
  have h := (loop_inv (dStep (circ.map (rename p)) nv) (dStep circ nv) (rename p)
    (fun s : DState α => (⟨permM p s.D, s.iEq⟩ : DState α)) (fun _ => True) (fun _ => True)
    (fun s e _ _ => dstep_rename hp circ s e) (fun _ _ _ _ _ _ => trivial) ⟨fun _ _ => 0, 0⟩ trivial circ
    (fun _ _ => trivial)).1
  have h0 : (⟨permM p fun _ _ => 0, 0⟩ : DState α) = ⟨fun _ _ => 0, 0⟩ := rfl
  simp only [h0] at h
  unfold generateD
  rw [h]
  cases hl : loop (dStep circ nv) ⟨fun _ _ => 0, 0⟩ circ with
  | error x => rfl
  | ok s =>
    have hc : s.iEq ≤ (vdes circ).length := by
      have := iEq_le circ nv circ ⟨fun _ _ => 0, 0⟩ s hl
      simpa using this
    simp only [Except.map, permM]
    congr 1
    funext i j
    congr 2
    have hq := hp.symm
    have e0 : ∀ i, p.symm i = 0 ↔ i = 0 := fun i => by rw [Equiv.symm_apply_eq, hp.zero]
    have e1 : ∀ i, S - s.iEq ≤ p.symm i ↔ S - s.iEq ≤ i := by
      intro i
      by_cases hi : i < nv
      · have := (hq.lt i).2 hi
        omega
      · rw [hq.high i (Nat.not_lt.1 hi)]
    simp only [cminMat, e0, e1, EmbeddingLike.apply_eq_iff_eq]

/-! ### Other numbers and another order -/

omit [Field α] in
theorem vdes_rename (p : Nat → Nat) (circ : List (Elem α)) :
    vdes (circ.map (rename p)) = (vdes circ).map (rename p) := by
  unfold vdes
  rw [List.filter_map]
  congr 1
  apply List.filter_congr
  intro e _
  exact rename_vde p e

theorem unique_rename (p : Nat → Nat) {circ : List (Elem α)} (hu : UniqueVde circ) :
    UniqueVde (circ.map (rename p)) := by
  unfold UniqueVde at *
  rw [vdes_rename, List.map_map]
  simpa [Function.comp_def, rename_id] using hu

omit [Field α] in
theorem nodes_rename {nv : Nat} {p : Equiv.Perm Nat} (hp : Renumbers nv p) {e : Elem α} (h : NodesLt nv e) :
    NodesLt nv (rename p e) := by
  cases e <;> simp_all [rename, NodesLt, hp.lt]

omit [Field α] in
theorem proper_rename (p : Equiv.Perm Nat) {e : Elem α} (h : Proper e) : Proper (rename p e) := by
  cases e <;> simp_all [rename, Proper]

theorem mulVec_perm {p : Equiv.Perm Nat} {nv S : Nat} (hp : Renumbers nv p) (hS : nv ≤ S) (M : Mat α) (x : Vec α)
    (r : Nat) : mulVec S (permM p M) (permV p x) (p r) = mulVec S M x r := by
  unfold mulVec
  refine (Finset.sum_equiv p ?_ ?_).symm
  · intro i
    rw [Finset.mem_range, Finset.mem_range]
    by_cases hi : i < nv
    · have := (hp.lt i).2 hi
      omega
    · rw [hp.high i (Nat.not_lt.1 hi)]
  · intro i _
    simp [permM, permV]

/-- the unknowns `x'` of the second circuit have the values of the unknowns `x` of the first: voltages of the same node,
currents of the same element -/
def Same (p : Nat → Nat) (circ circ' : List (Elem α)) (nv : Nat) (x x' : Vec α) : Prop :=
  (∀ r, r < nv → x' (p r) = x r) ∧
  ∀ k k' e, (vdes circ)[k]? = some e → (vdes circ')[k']? = some (rename p e) → x' (nv + k') = x (nv + k)

theorem rows_same {p : Equiv.Perm Nat} {nv : Nat} (hp : Renumbers nv p) {circ circ' : List (Elem α)} {s s' : Sys α}
    (hperm : (circ.map (rename p)).Perm circ') (hu : UniqueVde circ) (he : ∀ e ∈ circ, NodesLt nv e)
    (hpr : ∀ e ∈ circ, Proper e) (h : generate circ nv = .ok s) (h' : generate circ' nv = .ok s') (x x' : Vec α)
    (hx : Same p circ circ' nv x x') :
    s'.size = s.size ∧
    (∀ r, r < nv → mulVec s'.size s'.M x' (p r) + s'.N (p r) = mulVec s.size s.M x r + s.N r) ∧
    (∀ k k' e, (vdes circ)[k]? = some e → (vdes circ')[k']? = some (rename p e) →
      mulVec s'.size s'.M x' (nv + k') + s'.N (nv + k') = mulVec s.size s.M x (nv + k) + s.N (nv + k)) := by
  have ht : generate (circ.map (rename p)) nv = .ok (permS p s) := by
    rw [C170_static hp, h]; rfl
  have hS : nv ≤ s.size := by
    have := (generate_row x he hpr h).1
    omega
  have hq := hp.symm
  have hR : Renumbered (circ.map (rename p)) circ' nv (permV p x) x' := by
    refine ⟨fun r hr => ?_, fun k k' e hk hk' => ?_⟩
    · have := hx.1 (p.symm r) ((hq.lt r).2 hr)
      rw [Equiv.apply_symm_apply] at this
      exact this
    · rw [vdes_rename, List.getElem?_map] at hk
      cases hv : (vdes circ)[k]? with
      | none => rw [hv] at hk; cases hk
      | some e0 =>
        rw [hv, Option.map_some, Option.some.injEq] at hk
        rw [← hk] at hk'
        rw [hx.2 k k' e0 hv hk']
        simp [permV, hq.high (nv + k) (by omega)]
  have he' : ∀ e ∈ circ.map (rename p), NodesLt nv e := by
    intro e hm
    obtain ⟨e0, h0, rfl⟩ := List.mem_map.1 hm
    exact nodes_rename hp (he e0 h0)
  have hp' : ∀ e ∈ circ.map (rename p), Proper e := by
    intro e hm
    obtain ⟨e0, h0, rfl⟩ := List.mem_map.1 hm
    exact proper_rename p (hpr e0 h0)
  obtain ⟨a, b, c⟩ := C67_order_renumbers_branches hperm (unique_rename p hu) he' hp' ht h' _ _ hR
  refine ⟨a, fun r hr => ?_, fun k k' e hk hk' => ?_⟩
  · rw [b (p r) ((hp.lt r).2 hr)]
    show mulVec s.size (permM p s.M) (permV p x) (p r) + permV p s.N (p r) = _
    rw [mulVec_perm hp hS]
    simp [permV]
  · rw [c k k' (rename p e) (by rw [vdes_rename, List.getElem?_map, hk]; rfl) hk']
    show mulVec s.size (permM p s.M) (permV p x) (nv + k) + permV p s.N (nv + k) = _
    have := mulVec_perm hp hS s.M x (nv + k)
    rw [hp.high (nv + k) (by omega)] at this
    rw [this]
    simp [permV, hq.high (nv + k) (by omega)]

/-- the unknowns of the first circuit from those of the second -/
def back (p : Nat → Nat) (circ circ' : List (Elem α)) (nv : Nat) (x' : Vec α) : Vec α := fun r =>
  if r < nv then x' (p r)
  else match (vdes circ)[r - nv]? with
    | some e => x' (nv + branchOf circ' e.id)
    | none => 0

theorem back_same {p : Equiv.Perm Nat} {nv : Nat} {circ circ' : List (Elem α)}
    (hperm : (circ.map (rename p)).Perm circ') (hu : UniqueVde circ) (x' : Vec α) :
    Same p circ circ' nv (back p circ circ' nv x') x' := by
  refine ⟨fun r hr => by simp [back, hr], fun k k' e hk hk' => ?_⟩
  have hb := branchOf_eq ((unique_rename p hu).perm hperm) hk'
  rw [rename_id] at hb
  simp [back, hk, hb]

/-- corresponding rows, one by one -/
theorem row_of {p : Equiv.Perm Nat} {nv : Nat} (hp : Renumbers nv p) {circ circ' : List (Elem α)}
    (hperm : (circ.map (rename p)).Perm circ') (r : Nat) (hr : r < nv + (vdes circ).length) :
    (r < nv ∧ p r < nv) ∨ ∃ (k k' : Nat) (e : Elem α), r = nv + k ∧ (vdes circ)[k]? = some e ∧ (vdes circ')[k']? = some (rename p e) := by
  by_cases h : r < nv
  · exact .inl ⟨h, (hp.lt r).2 h⟩
  · right
    have hk : r - nv < (vdes circ).length := by omega
    have hm : rename p (vdes circ)[r - nv] ∈ vdes circ' := by
      rw [← (vdes_perm hperm).mem_iff, vdes_rename]
      exact List.mem_map_of_mem (List.getElem_mem hk)
    obtain ⟨k', hk'⟩ := List.mem_iff_getElem?.1 hm
    exact ⟨r - nv, k', (vdes circ)[r - nv], by omega, List.getElem?_eq_getElem hk, hk'⟩

theorem row_of' {p : Equiv.Perm Nat} {nv : Nat} (hp : Renumbers nv p) {circ circ' : List (Elem α)}
    (hperm : (circ.map (rename p)).Perm circ') (r : Nat) (hr : r < nv + (vdes circ').length) :
    (∃ r0, r = p r0 ∧ r0 < nv) ∨
      ∃ (k k' : Nat) (e : Elem α), r = nv + k' ∧ (vdes circ)[k]? = some e ∧ (vdes circ')[k']? = some (rename p e) := by
  by_cases h : r < nv
  · exact .inl ⟨p.symm r, by simp, (hp.symm.lt r).2 h⟩
  · right
    have hk : r - nv < (vdes circ').length := by omega
    have hm : (vdes circ')[r - nv] ∈ (vdes circ).map (rename p) := by
      rw [← vdes_rename, (vdes_perm hperm).mem_iff]
      exact List.getElem_mem hk
    obtain ⟨e, he, hee⟩ := List.mem_map.1 hm
    obtain ⟨k, hk0⟩ := List.mem_iff_getElem?.1 he
    exact ⟨k, r - nv, e, by omega, hk0, by rw [List.getElem?_eq_getElem hk, hee]⟩

end

/-! ### Operating points -/

section
open Matrix Verif.Rlc Verif.Bound Verif.Recip
variable {K : Type} [Field K] [LinearOrder K] [IsStrictOrderedRing K] {m : Nat}

theorem solution_same {p : Equiv.Perm Nat} {nv : Nat} (hnv : 0 < nv) (hp : Renumbers nv p) {circ circ' : List (Elem K)}
    {s s' : Sys K} (hperm : (circ.map (rename p)).Perm circ') (hu : UniqueVde circ) (he : ∀ e ∈ circ, NodesLt nv e)
    (hpr : ∀ e ∈ circ, Proper e) (h : generate circ nv = .ok s) (h' : generate circ' nv = .ok s') (g : K) (t : K)
    (x x' : Vec K) (hx : Same p circ circ' nv x x')
    (hs : Solution nv s'.size s'.M (fun _ _ => 0) (fun r => t * s'.N r) 0 g x') :
    Solution nv s.size s.M (fun _ _ => 0) (fun r => t * s.N r) 0 g x := by
  have hz := (generate_row x he hpr h).1
  have R := rows_same hp hperm hu he hpr h h' x x' hx
  have R0 := rows_same hp hperm hu he hpr h h' (fun _ => 0) (fun _ => 0) ⟨fun _ _ => rfl, fun _ _ _ _ _ => rfl⟩
  have z : ∀ (S : Nat) (M : Mat K) (r : Nat), mulVec S M (fun _ => 0) r = 0 := by
    intro S M r; simp [Mna.mulVec]
  simp only [z, zero_add] at R0
  have hp0 : p 0 = 0 := hp.zero
  refine ⟨?_, fun r h0 hr => ?_⟩
  · rw [← hx.1 0 hnv, hp0]; exact hs.1
  · rw [hz] at hr
    rcases row_of hp hperm r hr with ⟨h1, h2⟩ | ⟨k, k', e, rfl, hk, hk'⟩
    · have hpos : 0 < p r := Nat.pos_of_ne_zero fun hc => by
        have := p.injective (hc.trans hp0.symm)
        omega
      have := hs.2 (p r) hpos (by rw [R.1, hz]; omega)
      rw [if_pos h2, hx.1 r h1] at this
      rw [if_pos h1]
      have a := R.2.1 r h1
      have b := R0.2.1 r h1
      linear_combination this - a + (1 - t) * b
    · have hk2 : k' < (vdes circ').length := (List.getElem?_eq_some_iff.1 hk').1
      have hl := (vdes_perm hperm).length_eq
      rw [vdes_rename, List.length_map] at hl
      have := hs.2 (nv + k') (by omega) (by rw [R.1, hz]; omega)
      rw [if_neg (by omega)] at this ⊢
      have a := R.2.2 k k' e hk hk'
      have b := R0.2.2 k k' e hk hk'
      linear_combination this - a + (1 - t) * b

theorem det_same {p : Equiv.Perm Nat} {nv : Nat} (hnv : 0 < nv) (hp : Renumbers nv p) {circ circ' : List (Elem K)}
    {s s' : Sys K} (hperm : (circ.map (rename p)).Perm circ') (hu : UniqueVde circ) (he : ∀ e ∈ circ, NodesLt nv e)
    (hpr : ∀ e ∈ circ, Proper e) (h : generate circ nv = .ok s) (h' : generate circ' nv = .ok s') (hm : s.size = m + 1)
    (g : K) (hd : (reduce m s.M + Op.gminMat (nv - 1) g).det ≠ 0) :
    (reduce m s'.M + Op.gminMat (nv - 1) g).det ≠ 0 := by
  intro hc
  obtain ⟨v, hv, hv0⟩ := Matrix.exists_mulVec_eq_zero_iff.2 hc
  have hz := (generate_row (fun _ => 0) he hpr h).1
  have hS := (rows_same hp hperm hu he hpr h h' (fun _ => 0) (fun _ => 0) ⟨fun _ _ => rfl, fun _ _ _ _ _ => rfl⟩).1
  have s1 : Solution nv (m + 1) s'.M (fun _ _ => 0) (fun r => 0 * s'.N r) 0 g (Rlc.ext v) := by
    refine (solution_iff hnv s'.M _ g v).1 ?_
    rw [hv0]
    funext i
    simp [reduceV]
  rw [← hm, ← hS] at s1
  have s2 := solution_same hnv hp hperm hu he hpr h h' g 0 _ _ (back_same hperm hu _) s1
  simp only [zero_mul] at s2
  have s3 := regular hnv hm hd _ s2
  apply hv
  funext i
  have hl := (vdes_perm hperm).length_eq
  rw [vdes_rename, List.length_map] at hl
  have hi : i.val + 1 < nv + (vdes circ').length := by
    have := i.isLt
    omega
  have hb := back_same (nv := nv) hperm hu (Rlc.ext v)
  have e1 : Rlc.ext v (i.val + 1) = v i := by simp [Rlc.ext, i.isLt]
  rw [Pi.zero_apply, ← e1]
  rcases row_of' hp hperm (i.val + 1) hi with ⟨r0, h1, h2⟩ | ⟨k, k', e, h1, hk, hk'⟩
  · rw [h1, hb.1 r0 h2]
    exact s3 r0 (by omega)
  · rw [h1, hb.2 k k' e hk hk']
    have : k < (vdes circ).length := (List.getElem?_eq_some_iff.1 hk).1
    exact s3 (nv + k) (by omega)

/-- C170: the elements of a circuit in another order and the nodes with other numbers: `op_analysis` finds the same
voltage for every node and the same current for every voltage-defined element. -/
theorem C170_op {p : Equiv.Perm Nat} {nv : Nat} (hnv : 0 < nv) (hp : Renumbers nv p) {circ circ' : List (Elem K)}
    {s s' : Sys K} (hperm : (circ.map (rename p)).Perm circ') (hu : UniqueVde circ) (he : ∀ e ∈ circ, NodesLt nv e)
    (hpr : ∀ e ∈ circ, Proper e) (h : generate circ nv = .ok s) (h' : generate circ' nv = .ok s') (hm : s.size = m + 1)
    {o : Op.OOpts K} (ho : Op.Plain o) (hstd : o.meth.std = true) (gmin : K) (h0 : (reduce m s.M).det ≠ 0)
    (h1 : (reduce m s.M + Op.gminMat (nv - 1) gmin).det ≠ 0) (x0 y0 : Option (Fin m → K)) :
    ∃ x y : Fin m → K, Op.opAnalysis o (opCirc m nv s) gmin x0 = some (some ⟨x, 0⟩) ∧
      Op.opAnalysis o (opCirc m nv s') gmin y0 = some (some ⟨y, 0⟩) ∧
      (∀ r, r < nv → Rlc.ext y (p r) = Rlc.ext x r) ∧
      ∀ k k' e, (vdes circ)[k]? = some e → (vdes circ')[k']? = some (rename p e) →
        Rlc.ext y (nv + k') = Rlc.ext x (nv + k) := by
  have hz : Op.gminMat (m := m) (nv - 1) (0 : K) = 0 := by
    unfold Op.gminMat
    ext i j
    by_cases e : i = j
    · subst e; simp
    · simp [Matrix.diagonal_apply_ne _ e]
  have d0 : (reduce m s.M + Op.gminMat (nv - 1) 0).det ≠ 0 := by rwa [hz, add_zero]
  have d0' := det_same hnv hp hperm hu he hpr h h' hm 0 d0
  have d1' := det_same hnv hp hperm hu he hpr h h' hm gmin h1
  have d0'' : (reduce m s'.M).det ≠ 0 := by rwa [hz, add_zero] at d0'
  obtain ⟨x, e1, e2⟩ := Op.C119_linear ho hstd (c := opCirc m nv s) ⟨rfl, rfl⟩ gmin h0 h1 x0
  obtain ⟨y, f1, f2⟩ := Op.C119_linear ho hstd (c := opCirc m nv s') ⟨rfl, rfl⟩ gmin d0'' d1' y0
  have hS := (rows_same hp hperm hu he hpr h h' (fun _ => 0) (fun _ => 0) ⟨fun _ _ => rfl, fun _ _ _ _ _ => rfl⟩).1
  have s1 : Solution nv (m + 1) s'.M (fun _ _ => 0) s'.N 0 0 (Rlc.ext y) := by
    refine (solution_iff hnv s'.M _ 0 y).1 ?_
    rw [hz, add_zero]
    simpa [opCirc] using f2
  have t1 : Solution nv (m + 1) s.M (fun _ _ => 0) s.N 0 0 (Rlc.ext x) := by
    refine (solution_iff hnv s.M _ 0 x).1 ?_
    rw [hz, add_zero]
    simpa [opCirc] using e2
  rw [← hm] at t1
  rw [← hm, ← hS] at s1
  have hb := back_same (nv := nv) hperm hu (Rlc.ext y)
  have s2 := solution_same hnv hp hperm hu he hpr h h' 0 1 _ _ hb (by simpa using s1)
  simp only [one_mul] at s2
  have hsz := (generate_row (fun _ => 0) he hpr h).1
  have key : ∀ r, r < m + 1 → back p circ circ' nv (Rlc.ext y) r = Rlc.ext x r := by
    intro r hr
    have hd : Solution nv s.size s.M (fun _ _ => 0) (fun _ => 0) 0 0
        (fun r => back p circ circ' nv (Rlc.ext y) r - Rlc.ext x r) := by
      refine ⟨by simp only [s2.1, t1.1, sub_zero], fun r h0 hr => ?_⟩
      have a := s2.2 r h0 hr
      have b := t1.2 r h0 hr
      have ms : ∀ A : Mat K, mulVec s.size A (fun r => back p circ circ' nv (Rlc.ext y) r - Rlc.ext x r) r =
          mulVec s.size A (back p circ circ' nv (Rlc.ext y)) r - mulVec s.size A (Rlc.ext x) r := by
        intro A
        simp only [Mna.mulVec, mul_sub, Finset.sum_sub_distrib]
      rw [ms, ms]
      simp only [zero_mul, ite_self, add_zero] at a b ⊢
      linear_combination a - b
    have := regular hnv hm d0 _ hd r hr
    exact sub_eq_zero.1 this
  refine ⟨x, y, e1, f1, fun r hr => ?_, fun k k' e hk hk' => ?_⟩
  · rw [hb.1 r hr]; exact key r (by omega)
  · rw [hb.2 k k' e hk hk']
    have : k < (vdes circ).length := (List.getElem?_eq_some_iff.1 hk).1
    exact key _ (by omega)

end
end Verif.Rename
