import Verif.Props.Rest
import Verif.Props.DcLinear

/-!
C186: raising a source of a circuit of resistors and devices lowers no node voltage, and no node follows a voltage source
by more than the source moves.
-/

namespace Verif.Raise
open Verif.Circuit Verif.Mna Verif.Rlc Verif.Recip Verif.Bound Verif.Devices Verif.Rest

section Field
variable {K : Type} [Field K] [LinearOrder K] [IsStrictOrderedRing K]

/-! ### The same circuit with other source values -/

omit [Field K] [LinearOrder K] [IsStrictOrderedRing K] in
theorem part_proper {e : Elem K} (h : Part e) : Proper e := by
  rcases h with h | h <;> cases e <;> simp_all [TwoPole, Proper, Elem.nonlinear]

omit [Field K] [LinearOrder K] [IsStrictOrderedRing K] in
theorem setDc_part (d : String → K) {e : Elem K} (h : Part e) : Part (setDc d e) := by
  rcases h with h | h <;> cases e <;> simp_all [TwoPole, Devices.Part, Elem.nonlinear, setDc]

omit [Field K] [LinearOrder K] [IsStrictOrderedRing K] in
theorem dc_part {circ : List (Elem K)} (d : String → K) (hp : ∀ e ∈ circ, Part e) : ∀ e ∈ withDc d circ, Part e := by
  intro e he
  obtain ⟨e, hin, rfl⟩ := List.mem_map.1 he
  exact setDc_part d (hp e hin)

omit [IsStrictOrderedRing K] in
theorem dc_positive {circ : List (Elem K)} (d : String → K) (hp : ∀ e ∈ circ, Positive e) :
    ∀ e ∈ withDc d circ, Positive e := by
  intro e he
  obtain ⟨e, hin, rfl⟩ := List.mem_map.1 he
  have := hp e hin
  cases e <;> simp_all [Positive, setDc]

omit [Field K] [LinearOrder K] [IsStrictOrderedRing K] in
theorem dc_apart {circ : List (Elem K)} (d : String → K) (hp : ∀ e ∈ circ, Apart e) : ∀ e ∈ withDc d circ, Apart e := by
  intro e he
  obtain ⟨e, hin, rfl⟩ := List.mem_map.1 he
  have := hp e hin
  cases e <;> simp_all [Apart, setDc]

omit [LinearOrder K] [IsStrictOrderedRing K] in
theorem dc_devSum (d : String → K) (f : String → Nat → Nat → K) (circ : List (Elem K)) :
    devSum f (withDc d circ) = devSum f circ := by
  unfold devSum withDc
  rw [List.map_map]
  congr 1
  refine List.map_congr_left fun e _ => ?_
  cases e <;> rfl

omit [Field K] [LinearOrder K] [IsStrictOrderedRing K] in
theorem dc_device {circ : List (Elem K)} {d : String → K} {id : String} {n1 n2 : Nat} {a : Option (Nat × Nat)}
    {b c : List (Nat × Nat)} (h : Elem.NL id n1 n2 a b c ∈ withDc d circ) : Elem.NL id n1 n2 a b c ∈ circ := by
  obtain ⟨e, hin, h⟩ := List.mem_map.1 h
  cases e <;> simp only [setDc, reduceCtorEq] at h
  rwa [h] at hin

omit [LinearOrder K] [IsStrictOrderedRing K] in
/-- circuits of these parts can always be assembled -/
theorem dc_gen {circ : List (Elem K)} (hp : ∀ e ∈ circ, Part e) (d : String → K) (nv : Nat) :
    ∃ s, generate (withDc d circ) nv = .ok s := by
  have hp' := dc_part d hp
  refine (C07_assembly_succeeds_iff _ _).2 ⟨fun e he => ?_, fun e he => ?_, ?_⟩
  · obtain ⟨e, -, rfl⟩ := List.mem_map.1 he
    cases e <;> simp [setDc, DcGiven]
  · have := hp' e he
    rcases this with h | h <;> cases e <;> simp_all [TwoPole, CtrlExists, Elem.nonlinear]
  · intro pre post id n1 n2 src a h
    have := hp' (.H id n1 n2 src a) (by rw [h]; simp)
    simp [Devices.Part, TwoPole, Elem.nonlinear] at this

theorem dc_same {nv : Nat} {circ : List (Elem K)} {d d' : String → K} {s s' t : Sys K}
    (he : ∀ e ∈ circ, NodesLt nv e) (hp : ∀ e ∈ circ, Proper e) (h : generate (withDc d circ) nv = .ok s)
    (h' : generate (withDc d' circ) nv = .ok s') (ht : generate (withDc (fun k => d' k - d k) circ) nv = .ok t) :
    s'.size = s.size ∧ t.size = s.size ∧
    ∀ r, t.N r = s'.N r - s.N r ∧ ∀ x, mulVec s.size s'.M x r = mulVec s.size s.M x r ∧
      mulVec s.size t.M x r = mulVec s.size s.M x r := by
  have z : ∀ {d : String → K} {s : Sys K}, generate (withDc d circ) nv = .ok s → s.size = nv + (vdes circ).length := by
    intro d s h
    rw [(generate_row (fun _ => 0) (withDc_nodes _ he) (withDc_proper _ hp) h).1, withDc_vdes_length]
  have z1 : s'.size = s.size := by rw [z h, z h']
  have z2 : t.size = s.size := by rw [z h, z ht]
  refine ⟨z1, z2, fun r => ⟨?_, fun x => ⟨?_, ?_⟩⟩⟩
  · rw [(DcLinear.matrix_row he hp ht (fun _ => 0) r).2, (DcLinear.matrix_row he hp h (fun _ => 0) r).2,
      (DcLinear.matrix_row he hp h' (fun _ => 0) r).2]
    have lin := eqn_linear circ nv (fun _ => 0) (fun _ => 0) d' d 1 (-1) r
    simp only [mul_zero, add_zero] at lin
    rw [show (fun k => d' k - d k) = fun k => 1 * d' k + -1 * d k by funext k; ring, lin]
    ring
  · have := (DcLinear.matrix_row he hp h' x r).1
    rw [z1] at this
    rw [this, (DcLinear.matrix_row he hp h x r).1]
  · have := (DcLinear.matrix_row he hp ht x r).1
    rw [z2] at this
    rw [this, (DcLinear.matrix_row he hp h x r).1]

theorem dc_bridged {m nv : Nat} {circ : List (Elem K)} {d : String → K} (d' : String → K) (he : ∀ e ∈ circ, NodesLt nv e)
    (hp : ∀ e ∈ circ, Part e) (hb : Bridged m nv (withDc d circ)) (hm : m + 1 = nv + (vdes circ).length) :
    Bridged m nv (withDc d' circ) := by
  have com : ∀ d : String → K, (withDc d circ).map bridged = withDc d (circ.map bridged) := fun d => by
    simp only [withDc, List.map_map]
    refine List.map_congr_left fun e _ => ?_
    cases e <;> rfl
  have he' : ∀ e ∈ circ.map bridged, NodesLt nv e := bridged_lt he
  have hp2 := bridged_two hp
  have hp' : ∀ e ∈ circ.map bridged, Part e := fun e h => .inl (hp2 e h)
  have hpr : ∀ e ∈ circ.map bridged, Proper e := fun e h => part_proper (hp' e h)
  obtain ⟨s, hs, hd⟩ := hb
  rw [com] at hs
  obtain ⟨s', hs'⟩ := dc_gen hp' d' nv
  obtain ⟨t, ht⟩ := dc_gen hp' (fun k => d' k - d k) nv
  obtain ⟨z1, -, hr⟩ := dc_same he' hpr hs hs' ht
  have hvd : (vdes (circ.map bridged)).length = (vdes circ).length := by
    unfold vdes
    rw [List.filter_map, List.length_map]
    congr 1
    refine List.filter_congr fun e _ => ?_
    cases e <;> rfl
  have z : s.size = m + 1 := by
    rw [(generate_row (fun _ => 0) (withDc_nodes _ he') (withDc_proper _ hpr) hs).1, withDc_vdes_length, hvd, hm]
  refine ⟨s', by rw [com]; exact hs', ?_⟩
  have : reduce m s'.M = reduce m s.M := by
    refine Matrix.ext_of_mulVec_single fun j => ?_
    funext i
    have := ((hr (i.val + 1)).2 (Rlc.ext (Pi.single j 1))).1
    rw [z] at this
    rw [reduce_row, reduce_row, this]
  rwa [this]

/-! ### Comparing two operating points -/

/-- the voltages are determined: Gmin is in the matrix, or the currents grow strictly and the circuit with resistors in
the place of the devices is regular -/
def Firm (m nv : Nat) (g : K) (law : String → Law K) (d : String → K) (circ : List (Elem K)) : Prop :=
  0 < g ∨ ((∀ id n1 n2 a b c, Elem.NL id n1 n2 a b c ∈ circ → StrictMono (law id).i) ∧ Bridged m nv (withDc d circ))

/-- two operating points of the circuit, with sources `d` and `d'` -/
structure Points (m nv : Nat) (g : K) (law : String → Law K) (circ : List (Elem K)) (d d' : String → K) (s s' : Sys K)
    (z z' : Fin m → K) : Prop where
  pos : 0 < nv
  leak : 0 ≤ g
  nodes : ∀ e ∈ circ, NodesLt nv e
  parts : ∀ e ∈ circ, Part e
  values : ∀ e ∈ circ, Positive e
  apart : ∀ e ∈ circ, Apart e
  fixed : ∀ e ∈ circ, OpInfo.Fixed e
  grow : Grow law circ
  firm : Firm m nv g law d circ
  gen : generate (withDc d circ) nv = .ok s
  gen' : generate (withDc d' circ) nv = .ok s'
  size : s.size = m + 1
  point : IsPoint nv g law (withDc d circ) s z
  point' : IsPoint nv g law (withDc d' circ) s' z'

/-- a function that cuts nothing from the changes of the sources cuts nothing from those of the nodes -/
theorem cut_change {m nv : Nat} {g : K} {law : String → Law K} {circ : List (Elem K)} {d d' : String → K} {s s' : Sys K}
    {z z' : Fin m → K} (p : Points m nv g law circ d d' s s' z z') {f : K → K} (hf : Cut f)
    (hV : ∀ id n1 n2 v, Elem.V id n1 n2 v ∈ circ → Rlc.ext (z' - z) n1 - Rlc.ext (z' - z) n2 = d' id - d id →
      f (Rlc.ext (z' - z) n1) = f (Rlc.ext (z' - z) n2))
    (hI : ∀ id n1 n2 v, Elem.I id n1 n2 v ∈ circ →
      0 ≤ (d' id - d id) * (f (Rlc.ext (z' - z) n1) - f (Rlc.ext (z' - z) n2))) :
    ∀ i : Fin m, i.val < nv - 1 → f (z' i - z i) = 0 := by
  have hpr : ∀ e ∈ circ, Proper e := fun e h => part_proper (p.parts e h)
  obtain ⟨t, ht⟩ := dc_gen p.parts (fun k => d' k - d k) nv
  obtain ⟨z1, z2, hr⟩ := dc_same p.nodes hpr p.gen p.gen' ht
  set δ : String → K := fun k => d' k - d k with hδ
  set J : String → Nat → Nat → K := fun id n1 n2 => (law id).i (Rlc.ext z' n1 - Rlc.ext z' n2) -
    (law id).i (Rlc.ext z n1 - Rlc.ext z n2) with hJ
  have eqv : ∀ n1 n2, Rlc.ext (z' - z) n1 - Rlc.ext (z' - z) n2 =
      (Rlc.ext z' n1 - Rlc.ext z' n2) - (Rlc.ext z n1 - Rlc.ext z n2) := fun n1 n2 => by
    rw [ext_sub, ext_sub]; ring
  have red : ∀ x : Fin m → K, (reduce m s'.M).mulVec x = (reduce m s.M).mulVec x ∧
      (reduce m t.M).mulVec x = (reduce m s.M).mulVec x := by
    intro x
    have k := fun i : Fin m => (hr (i.val + 1)).2 (Rlc.ext x)
    rw [p.size] at k
    constructor <;> funext i <;> rw [reduce_row, reduce_row]
    · exact (k i).1
    · exact (k i).2
  have hz : ∀ i : Fin m, (reduce m t.M + Op.gminMat (nv - 1) g).mulVec (z' - z) i + t.N (i.val + 1) +
      devSum (fun id n1 n2 => inj n1 n2 (J id n1 n2) (i.val + 1)) (withDc δ circ) = 0 := by
    intro i
    have h1 := p.point i
    have h2 := p.point' i
    rw [vecT_eq law (dc_apart _ p.apart), currents, dc_devSum] at h1 h2
    have h3 := devSum_sub (fun id n1 n2 => inj n1 n2 ((law id).i (Rlc.ext z' n1 - Rlc.ext z' n2)) (i.val + 1))
      (fun id n1 n2 => inj n1 n2 ((law id).i (Rlc.ext z n1 - Rlc.ext z n2)) (i.val + 1)) circ
    have h4 : devSum (fun id n1 n2 => inj n1 n2 (J id n1 n2) (i.val + 1)) circ =
        devSum (fun id n1 n2 => inj n1 n2 ((law id).i (Rlc.ext z' n1 - Rlc.ext z' n2)) (i.val + 1) -
          inj n1 n2 ((law id).i (Rlc.ext z n1 - Rlc.ext z n2)) (i.val + 1)) circ :=
      devSum_congr circ fun id n1 n2 _ _ _ _ => by simp only [hJ, inj]; split_ifs <;> ring
    rw [dc_devSum, h4, ← h3, (hr (i.val + 1)).1, Matrix.mulVec_sub, Pi.sub_apply]
    rw [Matrix.add_mulVec, Pi.add_apply] at h1 h2 ⊢
    rw [Matrix.add_mulVec, Pi.add_apply, (red z).2, (red z').2]
    rw [(red z').1] at h2
    linear_combination h2 - h1
  have hnv := p.pos
  have hm : t.size = m + 1 := by rw [z2, p.size]
  have hs : ∀ id n1 n2 v, Elem.V id n1 n2 v ∈ withDc δ circ → ∃ v', Elem.V id n1 n2 v' ∈ circ ∧ staticVal v = δ id := by
    intro id n1 n2 v hin
    obtain ⟨e, h1, h2⟩ := List.mem_map.1 hin
    have := p.fixed e h1
    cases e <;> simp only [setDc, reduceCtorEq, Elem.V.injEq] at h2
    obtain ⟨rfl, rfl, rfl, rfl⟩ := h2
    simp only [OpInfo.Fixed] at this
    exact ⟨_, h1, by simp [staticVal, this]⟩
  have hs' : ∀ id n1 n2 v, Elem.I id n1 n2 v ∈ withDc δ circ → ∃ v', Elem.I id n1 n2 v' ∈ circ ∧ staticVal v = δ id := by
    intro id n1 n2 v hin
    obtain ⟨e, h1, h2⟩ := List.mem_map.1 hin
    have := p.fixed e h1
    cases e <;> simp only [setDc, reduceCtorEq, Elem.I.injEq] at h2
    obtain ⟨rfl, rfl, rfl, rfl⟩ := h2
    simp only [OpInfo.Fixed] at this
    exact ⟨_, h1, by simp [staticVal, this]⟩
  obtain ⟨h1, h2, h3, h4⟩ := cut_flow (J := J) hnv p.leak (withDc_nodes δ p.nodes) (dc_part δ p.parts)
    (dc_positive δ p.values) ht hm hf (fun id n1 n2 a b c hin => by
      rw [eqv]
      exact mono_mul (p.grow id n1 n2 a b c (dc_device hin)) _ _) hz
    (fun id n1 n2 v hin he => by
      obtain ⟨v', h1, h2⟩ := hs id n1 n2 v hin
      exact hV id n1 n2 v' h1 (by rw [he, h2]))
    (fun id n1 n2 v hin => by
      obtain ⟨v', h1, h2⟩ := hs' id n1 n2 v hin
      rw [h2]
      exact hI id n1 n2 v' h1)
  have all : ∀ r < nv, f (Rlc.ext (z' - z) r) = 0 := by
    rcases p.firm with h0 | ⟨h5, h6⟩
    · exact cut_gmin h0 h1
    · have hsz := (generate_row (fun _ => 0) (withDc_nodes _ p.nodes) (withDc_proper _ hpr) p.gen).1
      rw [withDc_vdes_length, p.size] at hsz
      refine cut_strict hnv (withDc_nodes δ p.nodes) (dc_part δ p.parts) ht hm (dc_bridged δ p.nodes p.parts h6 hsz)
        hf.zero (fun id n1 n2 a b c hin hne => ?_) h2 h3 h4
      rw [eqv] at hne ⊢
      have hsm := h5 id n1 n2 a b c (dc_device hin)
      rcases lt_or_gt_of_ne (sub_ne_zero.1 hne) with hlt | hlt
      · exact mul_pos_of_neg_of_neg (sub_neg.2 hlt) (sub_neg.2 (hsm hlt))
      · exact mul_pos (sub_pos.2 hlt) (sub_pos.2 (hsm hlt))
  intro i hi
  have := all (i.val + 1) (by omega)
  simpa [Rlc.ext, i.isLt] using this

/-! ### Properties -/

/-- the element is no source, a source that stays, or a source between a node and ground that is turned to push the node
up -/
def Raises (d d' : String → K) : Elem K → Prop
  | .V id n1 n2 _ => d id = d' id ∨ (n2 = 0 ∧ d id ≤ d' id) ∨ (n1 = 0 ∧ d' id ≤ d id)
  | .I id n1 n2 _ => d id = d' id ∨ (n1 = 0 ∧ d id ≤ d' id) ∨ (n2 = 0 ∧ d' id ≤ d id)
  | _ => True

/-- C186: raising sources lowers no node voltage. -/
theorem C186_raise {m nv : Nat} {g : K} {law : String → Law K} {circ : List (Elem K)} {d d' : String → K} {s s' : Sys K}
    {z z' : Fin m → K} (p : Points m nv g law circ d d' s s' z z') (hd : ∀ e ∈ circ, Raises d d' e) :
    ∀ i : Fin m, i.val < nv - 1 → z i ≤ z' i := by
  have e0 : Rlc.ext (z' - z) 0 = 0 := rfl
  have key := cut_change p (cut_below le_rfl) (fun id n1 n2 v hin hv => by
    have := hd _ hin
    rcases this with h | ⟨rfl, h⟩ | ⟨rfl, h⟩
    · rw [h, sub_self, sub_eq_zero] at hv
      simp only [hv]
    · rw [e0, sub_zero] at hv
      simp only [e0, hv, sub_zero, min_self]
      exact min_eq_right (sub_nonneg.2 h)
    · rw [e0, zero_sub] at hv
      simp only [e0, sub_zero, min_self]
      refine (min_eq_right ?_).symm
      linarith) (fun id n1 n2 v hin => by
    have := hd _ hin
    rcases this with h | ⟨rfl, h⟩ | ⟨rfl, h⟩
    · rw [h, sub_self, zero_mul]
    · simp only [e0, sub_zero, min_self]
      refine mul_nonneg (sub_nonneg.2 h) ?_
      have := min_le_right (Rlc.ext (z' - z) n2) 0
      linarith
    · simp only [e0, sub_zero, min_self]
      refine mul_nonneg_of_nonpos_of_nonpos (sub_nonpos.2 h) (min_le_right _ _))
  intro i hi
  have := key i hi
  rw [sub_zero] at this
  have := min_eq_right_iff.1 this
  linarith

/-- the element is no source, a source that stays, or a voltage source between a node and ground that moves the node by
between `lo` and `hi` -/
def Moves (lo hi : K) (d d' : String → K) : Elem K → Prop
  | .V id n1 n2 _ => d id = d' id ∨ (n2 = 0 ∧ lo ≤ d' id - d id ∧ d' id - d id ≤ hi) ∨
      (n1 = 0 ∧ lo ≤ d id - d' id ∧ d id - d' id ≤ hi)
  | .I id _ _ _ => d id = d' id
  | _ => True

/-- C186: no node voltage moves further than the voltage sources. -/
theorem C186_gain {m nv : Nat} {g : K} {law : String → Law K} {circ : List (Elem K)} {d d' : String → K} {s s' : Sys K}
    {z z' : Fin m → K} (p : Points m nv g law circ d d' s s' z z') {lo hi : K} (hlo : lo ≤ 0) (hhi : 0 ≤ hi)
    (hd : ∀ e ∈ circ, Moves lo hi d d' e) :
    ∀ i : Fin m, i.val < nv - 1 → lo ≤ z' i - z i ∧ z' i - z i ≤ hi := by
  have e0 : Rlc.ext (z' - z) 0 = 0 := rfl
  have cut : ∀ f : K → K, Cut f → (∀ t, lo ≤ t → t ≤ hi → f t = 0) → ∀ i : Fin m, i.val < nv - 1 → f (z' i - z i) = 0 := by
    intro f hf hin'
    refine cut_change p hf (fun id n1 n2 v hin hv => ?_) (fun id n1 n2 v hin => ?_)
    · have := hd _ hin
      rcases this with h | ⟨rfl, h1, h2⟩ | ⟨rfl, h1, h2⟩
      · rw [h, sub_self, sub_eq_zero] at hv
        rw [hv]
      · rw [e0, sub_zero] at hv
        rw [e0, hv, hf.zero]
        exact hin' _ h1 h2
      · rw [e0, zero_sub] at hv
        rw [e0, hf.zero]
        exact (hin' _ (by linarith) (by linarith)).symm
    · have : d id = d' id := hd _ hin
      rw [this, sub_self, zero_mul]
  intro i hi'
  have h1 := cut _ (cut_below hlo) (fun t h _ => min_eq_right (by linarith)) i hi'
  have h2 := cut _ (cut_above hhi) (fun t _ h => max_eq_right (by linarith)) i hi'
  have h1 := min_eq_right_iff.1 h1
  have h2 := max_eq_right_iff.1 h2
  exact ⟨by linarith, by linarith⟩

/-! ### Reported operating points and sweeps -/

open Op (OOpts OpSol opAnalysis gminMat)

omit [LinearOrder K] [IsStrictOrderedRing K] in
theorem bridged_same {circ : List (Elem K)} (hp : ∀ e ∈ circ, TwoPole e) : circ.map bridged = circ := by
  conv_rhs => rw [← List.map_id circ]
  refine List.map_congr_left fun e he => ?_
  have := hp e he
  cases e <;> simp_all [bridged, TwoPole]

/-- what `op_analysis` reports for two settings of the sources of a linear circuit -/
theorem reported {m nv : Nat} {circ : List (Elem K)} {d d' : String → K} {s s' : Sys K} {o : OOpts K} {gmin : K}
    (hnv : 0 < nv) (he : ∀ e ∈ circ, NodesLt nv e) (hp : ∀ e ∈ circ, TwoPole e) (hpos : ∀ e ∈ circ, Positive e)
    (hfix : ∀ e ∈ circ, OpInfo.Fixed e) (h : generate (withDc d circ) nv = .ok s)
    (h' : generate (withDc d' circ) nv = .ok s') (hm : s.size = m + 1) (ho : Op.Plain o) (hs : o.meth.std = true)
    (hd0 : (reduce m s.M).det ≠ 0) (hd1 : (reduce m s.M + gminMat (nv - 1) gmin).det ≠ 0)
    {x0 x0' : Option (Fin m → K)} {r r' : OpSol K m}
    (hr : opAnalysis o (Bound.opCirc m nv s) gmin x0 = some (some r))
    (hr' : opAnalysis o (Bound.opCirc m nv s') gmin x0' = some (some r')) :
    Points m nv 0 (fun _ => ⟨fun _ => 0, fun _ => 0⟩) circ d d' s s' r.x r'.x := by
  have hp' : ∀ e ∈ circ, Part e := fun e h => .inl (hp e h)
  have hpr : ∀ e ∈ circ, Proper e := fun e h => part_proper (hp' e h)
  obtain ⟨t, ht⟩ := dc_gen hp' (fun k => d' k - d k) nv
  obtain ⟨z1, -, hrow⟩ := dc_same he hpr h h' ht
  have hM : reduce m s'.M = reduce m s.M := by
    refine Matrix.ext_of_mulVec_single fun j => ?_
    funext i
    have := ((hrow (i.val + 1)).2 (Rlc.ext (Pi.single j 1))).1
    rw [hm] at this
    rw [reduce_row, reduce_row, this]
  have ap : ∀ e ∈ circ, Apart e := fun e h => by
    have := hp e h
    cases e <;> simp_all [TwoPole, Apart]
  have nodev : ∀ (d : String → K) (x : Fin m → K) (i : Fin m),
      vecT (fun _ => (⟨fun _ => 0, fun _ => 0⟩ : Law K)) (withDc d circ) x i = 0 := fun d x i => by
    rw [vecT_eq _ (dc_apart d ap), currents]
    simp only [inj_zero, devSum_none]
  obtain ⟨x, h1, h2⟩ := Op.C119_linear ho hs (c := Bound.opCirc m nv s) ⟨rfl, rfl⟩ gmin hd0 hd1 x0
  obtain ⟨y, h3, h4⟩ := Op.C119_linear ho hs (c := Bound.opCirc m nv s') ⟨rfl, rfl⟩ gmin
    (by simp only [Bound.opCirc]; rw [hM]; exact hd0) (by simp only [Bound.opCirc]; rw [hM]; exact hd1) x0'
  rw [h1] at hr
  rw [h3] at hr'
  simp only [Option.some.injEq] at hr hr'
  subst hr hr'
  have g0 : gminMat (m := m) (nv - 1) (0 : K) = 0 := by
    ext i j
    simp [gminMat, Matrix.diagonal]
  refine ⟨hnv, le_rfl, he, hp', hpos, ap, hfix, fun id n1 n2 a b c hin => ?_, .inr ⟨fun id n1 n2 a b c hin => ?_, ?_⟩, h, h', hm,
    fun i => ?_, fun i => ?_⟩
  · exact (hp _ hin).elim
  · exact (hp _ hin).elim
  · refine ⟨s, ?_, hd0⟩
    rw [bridged_same, h]
    intro e hin
    obtain ⟨e, h1, rfl⟩ := List.mem_map.1 hin
    have := hp e h1
    cases e <;> simp_all [TwoPole, setDc]
  · rw [nodev, add_zero, g0, add_zero]
    have := congrFun h2 i
    simpa [Bound.opCirc, reduceV] using this
  · rw [nodev, add_zero, g0, add_zero]
    have := congrFun h4 i
    simpa [Bound.opCirc, reduceV] using this

/-- C186: the points of a DC sweep of a voltage source between a node and ground, in a circuit of resistors, capacitors,
inductors and sources: along the sweep, every node voltage follows the source with a gain between 0 and 1. -/
theorem C186_sweep [FloorRing K] {nv m : Nat} {circ : List (Elem K)} {d : String → K} {name : String} {sys : K → Sys K}
    {o : OOpts K} {gmin : K} (hnv : 0 < nv) (he : ∀ e ∈ circ, NodesLt nv e) (hp : ∀ e ∈ circ, TwoPole e)
    (hpos : ∀ e ∈ circ, Positive e) (hfix : ∀ e ∈ circ, OpInfo.Fixed e)
    (hV : ∀ id n1 n2 v, Elem.V id n1 n2 v ∈ circ → id = name → n2 = 0)
    (hI : ∀ id n1 n2 v, Elem.I id n1 n2 v ∈ circ → id ≠ name)
    (h : ∀ v, generate (withDc (Function.update d name v) circ) nv = .ok (sys v)) (hm : (sys 0).size = m + 1)
    (ho : Op.Plain o) (hs : o.meth.std = true)
    (hd0 : (reduce m (sys 0).M).det ≠ 0) (hd1 : (reduce m (sys 0).M + gminMat (nv - 1) gmin).det ≠ 0)
    (skip : Bool) (start step dc0 : K) (n : Nat) (hst : step ≠ 0) (x0 : Option (OpSol K m)) :
    ∃ a b : Fin m → K, (∀ i : Fin m, i.val < nv - 1 → 0 ≤ b i ∧ b i ≤ 1) ∧
      (Sweep.dcAnalysis skip (DcLinear.opAt o nv gmin sys) start (start + n * step) step dc0 x0).out =
        .ok (some ((List.range (n + 1)).map fun k : Nat =>
          (start + k * step, ⟨fun i => a i + (start + k * step) * b i, 0⟩))) := by
  have hpr : ∀ e ∈ circ, Proper e := fun e h => part_proper (.inl (hp e h))
  obtain ⟨a', b', hab'⟩ := DcLinear.C158_affine he hpr h hm ho hs hd0 hd1
  have pts := reported hnv he hp hpos hfix (h 0) (h 1) hm ho hs hd0 hd1 (hab' 0 none) (hab' 1 none)
  have bound : ∀ i : Fin m, i.val < nv - 1 → 0 ≤ b' i ∧ b' i ≤ 1 := by
    intro i hi
    have := C186_gain pts (lo := 0) (hi := 1) le_rfl zero_le_one (fun e hin => by
      cases e <;> simp only [Moves]
      · rename_i id n1 n2 v
        by_cases hn : id = name
        · right; left
          rw [hn]
          exact ⟨hV id n1 n2 v hin hn, by simp, by simp⟩
        · left
          rw [Function.update_of_ne hn, Function.update_of_ne hn]
      · rename_i id n1 n2 v
        rw [Function.update_of_ne (hI id n1 n2 v hin), Function.update_of_ne (hI id n1 n2 v hin)]) i hi
    simpa using this
  exact ⟨a', b', bound, DcLinear.sweep_line hab' skip start step dc0 n hst x0⟩

end Field

/-- C186 for the coded diodes: raising sources lowers no node voltage. -/
theorem C186_diodes {m nv : Nat} {circ : List (Elem ℝ)} {d d' : String → ℝ} {s s' : Sys ℝ} {g gmin : ℝ}
    {law : String → Law ℝ} {z z' : Fin m → ℝ} (hnv : 0 < nv) (hg : 0 ≤ g) (he : ∀ e ∈ circ, NodesLt nv e)
    (hp : ∀ e ∈ circ, Part e) (hpos : ∀ e ∈ circ, Positive e) (ha : ∀ e ∈ circ, Apart e)
    (hfix : ∀ e ∈ circ, OpInfo.Fixed e)
    (hl : ∀ id n1 n2 a b c, Elem.NL id n1 n2 a b c ∈ circ → ∃ dm area, IsDiode gmin (law id) dm area)
    (h : generate (withDc d circ) nv = .ok s) (h' : generate (withDc d' circ) nv = .ok s') (hm : s.size = m + 1)
    (hb : Bridged m nv (withDc d circ)) (hz : IsPoint nv g law (withDc d circ) s z)
    (hz' : IsPoint nv g law (withDc d' circ) s' z') (hd : ∀ e ∈ circ, Raises d d' e) :
    ∀ i : Fin m, i.val < nv - 1 → z i ≤ z' i := by
  have hsm : ∀ id n1 n2 a b c, Elem.NL id n1 n2 a b c ∈ circ → StrictMono (law id).i := fun id n1 n2 a b c hin => by
    obtain ⟨dm, area, hd⟩ := hl id n1 n2 a b c hin
    exact hd.strictMono
  exact C186_raise ⟨hnv, hg, he, hp, hpos, ha, hfix, fun id n1 n2 a b c hin => (hsm id n1 n2 a b c hin).monotone,
    .inr ⟨hsm, hb⟩, h, h', hm, hz, hz'⟩ hd

/-! ### Examples -/

theorem cube_strict : StrictMono fun v : ℚ => v ^ 3 := Odd.strictMono_pow (by decide)

/-- the device of `bulbs` at 2 V and at 10 V -/
theorem bulbs_points : Points 3 3 0 cube (bulbs 0) (fun _ => 2) (fun _ => 10) (sysOf (bulbs 2) 3) (sysOf (bulbs 10) 3)
    ![2, 1, -1] ![10, 2, -8] := by
  obtain ⟨h1, h2, h3, h4, h5⟩ := bulbs_sound 0
  refine ⟨by norm_num, le_rfl, h1, h2, h3, h4, h5, fun _ _ _ _ _ _ _ => cube_strict.monotone,
    .inr ⟨fun _ _ _ _ _ _ _ => cube_strict, bulbs_bridged 2⟩, rfl, rfl, rfl, bulbs_point, ?_⟩
  change IsPoint 3 0 cube (bulbs 10) (sysOf (bulbs 10) 3) ![10, 2, -8]
  unfold IsPoint
  decide +kernel

example : (1 : ℚ) ≤ 2 := C186_raise bulbs_points (by simp [bulbs, Raises]; norm_num) 1 (by decide)

example : (2 : ℚ) - 1 ≤ 8 :=
  (C186_gain bulbs_points (lo := 0) (hi := 8) le_rfl (by norm_num) (by simp [bulbs, Moves]; norm_num) 1 (by decide)).2

example (n : Nat) : ∃ a b : Fin 3 → ℚ, (0 ≤ b 1 ∧ b 1 ≤ 1) ∧
    (Sweep.dcAnalysis true (DcLinear.opAt Op.dflt 3 (1 / 10 ^ 12) DcLinear.demoSys) 0 (0 + n * 2) 2 7 none).out =
      .ok (some ((List.range (n + 1)).map fun k : Nat => (0 + k * 2, ⟨fun i => a i + (0 + k * 2) * b i, 0⟩))) := by
  obtain ⟨a, b, h, h'⟩ := C186_sweep (circ := DcLinear.demo) (d := fun _ => 5) (name := "V1") (nv := 3) (m := 3)
    (o := Op.dflt) (gmin := 1 / 10 ^ 12) (sys := DcLinear.demoSys) (by decide) (by simp [DcLinear.demo, NodesLt])
    (by simp [DcLinear.demo, TwoPole]) (by simp [DcLinear.demo, Positive]) (by simp [DcLinear.demo, OpInfo.Fixed])
    (by simp [DcLinear.demo]; intros; assumption)
    (by simp [DcLinear.demo]; rintro _ _ _ _ rfl _ _ _; decide) (fun v => rfl) rfl ⟨rfl, by decide⟩ rfl (by decide +kernel)
    (by decide +kernel) true 0 2 7 n (by norm_num) none
  exact ⟨a, b, h 1 (by decide), h'⟩

/-- more current into a resistor and a diode: more voltage -/
example (i j : ℝ) (hij : i ≤ j) (x y : Fin 1 → ℝ)
    (hx : IsPoint 2 0 plainLaw (withDc (fun _ => i) (clamp 1000)) (sysR (withDc (fun _ => i) (clamp 1000)) 2) x)
    (hy : IsPoint 2 0 plainLaw (withDc (fun _ => j) (clamp 1000)) (sysR (withDc (fun _ => j) (clamp 1000)) 2) y) :
    x 0 ≤ y 0 := by
  obtain ⟨h1, h2, h3, h4⟩ := clamp_sound 1000 (by norm_num)
  refine C186_diodes (gmin := 1 / 10 ^ 12) (by norm_num) le_rfl h1 h2 h3 h4 (by simp [clamp, OpInfo.Fixed]) ?_ rfl rfl rfl
    ?_ hx hy (by simp [clamp, Raises, hij]) 0 (by decide)
  · intro id n1 n2 a b c hin
    simp only [clamp, List.mem_cons, List.not_mem_nil, or_false, reduceCtorEq, false_or] at hin
    exact ⟨Diode.default, 1, plain_diode⟩
  · exact dc_bridged (d := fun _ => 1) (fun _ => i) h1 h2 (clamp_bridged 1000 (by norm_num)) rfl

end Verif.Raise
