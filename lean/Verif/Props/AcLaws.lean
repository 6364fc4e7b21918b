import Verif.Props.Laws
import Verif.Props.Stable

/-!
Property C174: the AC analysis finds the phasors that obey Kirchhoff's laws with the impedances of the elements.
-/

namespace Verif.AcLaws
open Verif.Circuit Verif.Mna Verif.Dyn Verif.Rlc Verif.Recip Verif.Stable
open Complex (I)

/-- phasor of the current from terminal 1 to terminal 2 at the complex frequency `s`; `ph` are the phasors of the sources -/
noncomputable def pcur (ph : String → Option ℂ) (s : ℂ) (v : Nat → ℂ) (i : List Char → ℂ) : Elem ℝ → ℂ
  | .R _ a b r => (v a - v b) / r
  | .C _ a b c _ => s * c * (v a - v b)
  | .I id .. => (ph id).getD 0
  | .G _ _ _ c d k => k * (v c - v d)
  | .F _ _ _ src k => k * i (upper src)
  | .V id .. | .E id .. | .H id .. | .L id .. => i (upper id)
  | _ => 0

/-- flux of an inductor: its own and that of the coupled inductors -/
noncomputable def pflux (i : List Char → ℂ) (id : String) (l : ℝ) (coup : List (Coupling ℝ)) : ℂ :=
  l * i (upper id) + (coup.map fun cd => (cd.M : ℂ) * i (upper (if upper id = upper cd.L1 then cd.L2 else cd.L1))).sum

/-- the equation of a voltage-defined element, controlled sources as coded (C07) -/
noncomputable def plaw (ph : String → Option ℂ) (s : ℂ) (v : Nat → ℂ) (i : List Char → ℂ) : Elem ℝ → ℂ
  | .V id a b _ => v a - v b - (ph id).getD 0
  | .L id a b l _ coup => v a - v b - s * pflux i id l coup
  | .E _ a b c d k => (if a = c ∨ a = d then 0 else v a) - (if b = c ∨ b = d then 0 else v b)
      - (if c = d then 0 else k * v c) + k * v d
  | .H _ a b src k => v a - v b + k * i (upper src)
  | _ => 0

/-- Kirchhoff's laws and the laws of the elements for phasors, with the admittance `y` from every node to the reference -/
structure Phasors (circ : List (Elem ℝ)) (nv : Nat) (ph : String → Option ℂ) (s y : ℂ) (v : Nat → ℂ) (i : List Char → ℂ) :
    Prop where
  ground : v 0 = 0
  node : ∀ r, 0 < r → r < nv → (circ.map fun e => inj (term e).1 (term e).2 (pcur ph s v i e) r).sum + y * v r = 0
  branch : ∀ e ∈ circ, e.vde = true → plaw ph s v i e = 0

/-- the currents by name -/
def pnamed (circ : List (Elem ℝ)) (nv : Nat) (z : Vec ℂ) : List Char → ℂ := fun w =>
  z (nv + (vdes circ).findIdx fun e => upper e.id = w)

theorem pnamed_upper (circ : List (Elem ℝ)) (nv : Nat) (z : Vec ℂ) (s : String) :
    pnamed circ nv z (upper s) = z (nv + branchOf circ s) := rfl

theorem split (z : ℂ) : z = ((z.re : ℝ) : ℂ) + I * ((z.im : ℝ) : ℂ) := by
  apply Complex.ext <;> simp

theorem combine (f g : Elem ℝ → ℝ) (h : Elem ℝ → ℂ) (l : List (Elem ℝ)) (H : ∀ e ∈ l, (f e : ℂ) + I * (g e : ℂ) = h e) :
    (((l.map f).sum : ℝ) : ℂ) + I * (((l.map g).sum : ℝ) : ℂ) = (l.map h).sum := by
  induction l with
  | nil => simp
  | cons e t ih =>
    have h1 := H e (by simp)
    have h2 := ih fun e' he' => H e' (by simp [he'])
    simp only [List.map_cons, List.sum_cons, Complex.ofReal_add]
    rw [← h1, ← h2]
    ring

theorem inj_split (a b : Nat) (x y : ℝ) (r : Nat) :
    ((inj a b x r : ℝ) : ℂ) + I * ((inj a b y r : ℝ) : ℂ) = inj a b ((x : ℂ) + I * y) r := by
  simp only [inj]
  split_ifs <;> push_cast <;> ring

theorem inj_add' (a b : Nat) (x y : ℂ) (r : Nat) : inj a b (x + y) r = inj a b x r + inj a b y r := by
  simp only [inj]
  split_ifs <;> ring

theorem inj_mul (a b : Nat) (c x : ℂ) (r : Nat) : inj a b (c * x) r = c * inj a b x r := by
  simp only [inj]
  split_ifs <;> ring

/-- current of an element without the capacitors and the sources -/
theorem cur_split (circ : List (Elem ℝ)) (nv : Nat) (z : Vec ℂ) (e : Elem ℝ) :
    ((Laws.cur 0 (re z) (Laws.named circ nv (re z)) e : ℝ) : ℂ) +
      I * ((Laws.cur 0 (im z) (Laws.named circ nv (im z)) e : ℝ) : ℂ) =
    match e with
    | .C .. | .I .. => 0
    | e => pcur (fun _ => none) 0 z (pnamed circ nv z) e := by
  cases e <;> simp only [Laws.cur, pcur, Laws.named_upper, pnamed_upper, zero_mul, Complex.ofReal_zero, mul_zero, add_zero]
  case R id a b r =>
    simp only [re, im]; push_cast
    linear_combination (-(1 / (r : ℂ))) * split (z a) + (1 / (r : ℂ)) * split (z b)
  case G id a b c d k =>
    simp only [re, im]; push_cast
    linear_combination (-(k : ℂ)) * split (z c) + (k : ℂ) * split (z d)
  case F id a b src k =>
    simp only [re, im]; push_cast
    linear_combination (-(k : ℂ)) * split (z (nv + branchOf circ src))
  all_goals exact (split _).symm

/-- the rows of the nodes -/
theorem node_row {nv : Nat} {circ : List (Elem ℝ)} {sys : Sys ℝ} {D : Mat ℝ} {cmin : ℝ} (hu : UniqueVde circ)
    (he : ∀ e ∈ circ, NodesLt nv e) (hp : ∀ e ∈ circ, Proper e) (h : generate circ nv = .ok sys)
    (hd : generateAC circ nv sys.size cmin = .ok D) (ph : String → Option ℂ) (s : ℂ) (z : Vec ℂ) (hz : z 0 = 0) (r : Nat)
    (h0 : 0 < r) (hr : r < nv) :
    mulVec sys.size (cast sys.M) z r + s * mulVec sys.size (cast D) z r + (genNac (circ.map (lift ph)) nv).2 r =
      (circ.map fun e => inj (term e).1 (term e).2 (pcur ph s z (pnamed circ nv z) e) r).sum + s * cmin * z r := by
  have hS := (generate_row (fun _ => (0 : ℝ)) he hp h).1
  rw [C08_ac_same, hS] at hd
  have hre : re z 0 = 0 := by simp [re, hz]
  have him : im z 0 = 0 := by simp [im, hz]
  have m1 := (Laws.rows_laws hu he hp h 0 (re z)).1 r hr
  have m2 := (Laws.rows_laws hu he hp h 0 (im z)).1 r hr
  rw [zero_mul, add_zero, Laws.leaving] at m1 m2
  have d1 := C08_node_rows he hd (re z) hre r h0 hr
  have d2 := C08_node_rows he hd (im z) him r h0 hr
  rw [mulVec_cast, m1, m2, mulVec_cast, hS, d1, d2]
  have a := (C10_ac_excitation (circ.map (lift ph)) nv (by
    intro e hm
    obtain ⟨e', h1, rfl⟩ := List.mem_map.1 hm
    exact lift_nodes (he e' h1))).2.1 r hr
  rw [a]
  rw [combine _ _ (fun e => inj (term e).1 (term e).2 (((Laws.cur 0 (re z) (Laws.named circ nv (re z)) e : ℝ) : ℂ) +
      I * ((Laws.cur 0 (im z) (Laws.named circ nv (im z)) e : ℝ) : ℂ)) r) circ (fun e _ => inj_split _ _ _ _ _)]
  have c2 := combine (fun e => inj (term e).1 (term e).2 (capCurrent (re z) e) r)
    (fun e => inj (term e).1 (term e).2 (capCurrent (im z) e) r)
    (fun e => inj (term e).1 (term e).2 (((capCurrent (re z) e : ℝ) : ℂ) + I * ((capCurrent (im z) e : ℝ) : ℂ)) r) circ
    (fun e _ => inj_split _ _ _ _ _)
  have hs : ∀ l : List (Elem ℝ),
      (l.map fun e => inj (term e).1 (term e).2 (pcur ph s z (pnamed circ nv z) e) r).sum =
      (l.map fun e => inj (term e).1 (term e).2 (((Laws.cur 0 (re z) (Laws.named circ nv (re z)) e : ℝ) : ℂ) +
        I * ((Laws.cur 0 (im z) (Laws.named circ nv (im z)) e : ℝ) : ℂ)) r).sum +
      s * (l.map fun e => inj (term e).1 (term e).2 (((capCurrent (re z) e : ℝ) : ℂ) +
        I * ((capCurrent (im z) e : ℝ) : ℂ)) r).sum + acNode (l.map (lift ph)) r := by
    intro l
    induction l with
    | nil => simp [acNode]
    | cons e t ih =>
      have ha : acNode ((e :: t).map (lift ph)) r = acNode [lift ph e] r + acNode (t.map (lift ph)) r := by
        simp [acNode]
      rw [ha]
      simp only [List.map_cons, List.sum_cons]
      rw [ih, mul_add, ← inj_mul]
      have key : inj (term e).1 (term e).2 (pcur ph s z (pnamed circ nv z) e) r =
          inj (term e).1 (term e).2 (((Laws.cur 0 (re z) (Laws.named circ nv (re z)) e : ℝ) : ℂ) +
            I * ((Laws.cur 0 (im z) (Laws.named circ nv (im z)) e : ℝ) : ℂ)) r +
          inj (term e).1 (term e).2 (s * (((capCurrent (re z) e : ℝ) : ℂ) + I * ((capCurrent (im z) e : ℝ) : ℂ))) r +
          acNode [lift ph e] r := by
        rw [cur_split, ← inj_add']
        cases e <;> simp only [acNode, lift, List.map_cons, List.map_nil, List.sum_cons, List.sum_nil, capCurrent, pcur,
          Complex.ofReal_zero, mul_zero, add_zero, zero_add]
        case C n1 n2 c ic =>
          congr 1
          simp only [re, im]
          push_cast
          linear_combination (s * (c : ℂ)) * split (z n1) - (s * (c : ℂ)) * split (z n2)
        case I id a b src =>
          have h0 : inj (α := ℂ) a b 0 r = 0 := Laws.inj_zero a b r
          simp only [term, h0, zero_add]
      rw [key]
      ring
  rw [hs circ, ← c2]
  have e1 : z r = ((re z r : ℝ) : ℂ) + I * ((im z r : ℝ) : ℂ) := split _
  rw [e1]
  push_cast
  ring

theorem flux_split (circ : List (Elem ℝ)) (nv : Nat) (z : Vec ℂ) {k : Nat} {id : String} {a b : Nat} {l : ℝ} {ic : Option ℝ}
    {coup : List (Coupling ℝ)} (hk : branchOf circ id = k) :
    ((flux circ nv (re z) k (.L id a b l ic coup) : ℝ) : ℂ) + I * ((flux circ nv (im z) k (.L id a b l ic coup) : ℝ) : ℂ) =
      -pflux (pnamed circ nv z) id l coup := by
  simp only [flux, mutualTerm, pflux, pnamed_upper]
  rw [hk]
  have : ∀ c : List (Coupling ℝ),
      (((c.map fun cd => cd.M * re z (nv + branchOf circ (if upper id = upper cd.L1 then cd.L2 else cd.L1))).sum : ℝ) : ℂ) +
      I * (((c.map fun cd => cd.M * im z (nv + branchOf circ (if upper id = upper cd.L1 then cd.L2 else cd.L1))).sum : ℝ) : ℂ) =
      (c.map fun cd => (cd.M : ℂ) * z (nv + branchOf circ (if upper id = upper cd.L1 then cd.L2 else cd.L1))).sum := by
    intro c
    induction c with
    | nil => simp
    | cons cd t ih =>
      simp only [List.map_cons, List.sum_cons, Complex.ofReal_add]
      rw [← ih]
      simp only [re, im]
      push_cast
      linear_combination (-(cd.M : ℂ)) * split (z (nv + branchOf circ (if upper id = upper cd.L1 then cd.L2 else cd.L1)))
  rw [← this coup]
  simp only [re, im]
  push_cast
  linear_combination (l : ℂ) * split (z (nv + k))

/-- the rows of the branches -/
theorem branch_row {nv : Nat} (hnv : 0 < nv) {circ : List (Elem ℝ)} {sys : Sys ℝ} {D : Mat ℝ} {cmin : ℝ} (hu : UniqueVde circ)
    (he : ∀ e ∈ circ, NodesLt nv e) (hp : ∀ e ∈ circ, Proper e) (h : generate circ nv = .ok sys)
    (hd : generateAC circ nv sys.size cmin = .ok D) (ph : String → Option ℂ) (s : ℂ) (z : Vec ℂ) (hz : z 0 = 0) {k : Nat}
    {e : Elem ℝ} (hk : (vdes circ)[k]? = some e) :
    mulVec sys.size (cast sys.M) z (nv + k) + s * mulVec sys.size (cast D) z (nv + k) +
      (genNac (circ.map (lift ph)) nv).2 (nv + k) = plaw ph s z (pnamed circ nv z) e := by
  have hS := (generate_row (fun _ => (0 : ℝ)) he hp h).1
  rw [C08_ac_same, hS] at hd
  have hre : re z 0 = 0 := by simp [re, hz]
  have him : im z 0 = 0 := by simp [im, hz]
  have m1 := (Laws.rows_laws hu he hp h 0 (re z)).2 k e hk
  have m2 := (Laws.rows_laws hu he hp h 0 (im z)).2 k e hk
  rw [zero_mul, add_zero] at m1 m2
  have d1 := C08_branch_rows hnv he hd (re z) hre k e hk
  have d2 := C08_branch_rows hnv he hd (im z) him k e hk
  have hb := branchOf_eq hu hk
  have hac : (genNac (circ.map (lift ph)) nv).2 (nv + k) = acBranch (lift ph e) := by
    refine (C10_ac_excitation (circ.map (lift ph)) nv (by
      intro e hm
      obtain ⟨e', h1, rfl⟩ := List.mem_map.1 hm
      exact lift_nodes (he e' h1))).2.2 k _ ?_
    have : vdes (circ.map (lift ph)) = (vdes circ).map (lift ph) := by
      unfold vdes
      rw [List.filter_map]
      congr 1
      apply List.filter_congr
      intro x _
      exact lift_vde ph x
    rw [this, List.getElem?_map, hk]
    rfl
  rw [mulVec_cast, m1, m2, mulVec_cast, hS, d1, d2, hac]
  cases e
  case L id a b l ic coup =>
    have hb' : branchOf circ id = k := hb
    rw [flux_split circ nv z hb']
    simp only [Laws.lawOf, plaw, acBranch, lift, re, im]
    push_cast
    linear_combination split (z b) - split (z a)
  case V id a b src =>
    simp only [Laws.lawOf, plaw, acBranch, lift, re, im, flux]
    push_cast
    linear_combination split (z b) - split (z a)
  case H id a b src k =>
    simp only [Laws.lawOf, plaw, acBranch, lift, re, im, flux, Laws.named_upper, pnamed_upper]
    push_cast
    linear_combination split (z b) - split (z a) - (k : ℂ) * split (z (nv + branchOf circ src))
  case E id a b c d k =>
    simp only [Laws.lawOf, plaw, acBranch, lift, re, im, flux]
    have hif : ∀ (p : Prop) [Decidable p] (w : ℂ),
        (if p then 0 else w) = (((if p then 0 else w.re : ℝ)) : ℂ) + I * ((if p then 0 else w.im : ℝ) : ℂ) := by
      intro p _ w
      by_cases hp : p
      · simp [hp]
      · simp only [hp, if_false]; exact split w
    have hif' : (if c = d then 0 else (k : ℂ) * z c) =
        (((if c = d then 0 else k * (z c).re : ℝ)) : ℂ) + I * ((if c = d then 0 else k * (z c).im : ℝ) : ℂ) := by
      by_cases hp : c = d
      · simp [hp]
      · simp only [hp, if_false]
        push_cast
        linear_combination (k : ℂ) * split (z c)
    have ha := hif (a = c ∨ a = d) (z a)
    have hb := hif (b = c ∨ b = d) (z b)
    simp only [Complex.ofReal_add, Complex.ofReal_sub, Complex.ofReal_mul, Complex.ofReal_zero]
    linear_combination hb - ha + hif' - (k : ℂ) * split (z d)
  all_goals
    simp only [Laws.lawOf, plaw, acBranch, lift, flux]
    simp

/-- C174: the unknowns solve the equations of the AC analysis if and only if they are phasors that obey Kirchhoff's laws and
the laws of the elements; every node is loaded with Gmin and the minimal capacitance. -/
theorem C174_phasors {nv : Nat} (hnv : 0 < nv) {circ : List (Elem ℝ)} {sys : Sys ℝ} {D : Mat ℝ} {cmin : ℝ}
    (hu : UniqueVde circ) (he : ∀ e ∈ circ, NodesLt nv e) (hp : ∀ e ∈ circ, Proper e) (h : generate circ nv = .ok sys)
    (hd : generateAC circ nv sys.size cmin = .ok D) (ph : String → Option ℂ) (s g : ℂ) (z : Vec ℂ) :
    Solution nv sys.size (cast sys.M) (cast D) (genNac (circ.map (lift ph)) nv).2 s g z ↔
      Phasors circ nv ph s (g + s * cmin) z (pnamed circ nv z) := by
  have hS := (generate_row (fun _ => (0 : ℝ)) he hp h).1
  constructor
  · rintro ⟨h0, h1⟩
    refine ⟨h0, fun r hr0 hr => ?_, fun e hm hv => ?_⟩
    · have a := node_row hu he hp h hd ph s z h0 r hr0 hr
      have b := h1 r hr0 (by omega)
      rw [if_pos hr] at b
      linear_combination b - a
    · obtain ⟨k, hk⟩ : ∃ k : Nat, (vdes circ)[k]? = some e :=
        List.mem_iff_getElem?.1 (List.mem_filter.2 ⟨hm, hv⟩ : e ∈ vdes circ)
      have hlt : k < (vdes circ).length := (List.getElem?_eq_some_iff.1 hk).1
      have b := h1 (nv + k) (by omega) (by omega)
      rw [if_neg (by omega)] at b
      rw [← branch_row hnv hu he hp h hd ph s z h0 hk]
      linear_combination b
  · rintro ⟨h0, h1, h2⟩
    refine ⟨h0, fun r hr0 hr => ?_⟩
    by_cases hlt : r < nv
    · have a := node_row hu he hp h hd ph s z h0 r hr0 hlt
      have b := h1 r hr0 hlt
      rw [if_pos hlt]
      linear_combination b + a
    · have hk : r - nv < (vdes circ).length := by omega
      have hm := List.mem_filter.1 (List.getElem_mem hk)
      have a := branch_row hnv hu he hp h hd ph s z h0 (List.getElem?_eq_getElem hk)
      rw [show nv + (r - nv) = r by omega, h2 _ hm.1 hm.2] at a
      rw [if_neg hlt]
      linear_combination a

/-! ### The results of the analysis -/

/-- unknowns from voltages and named currents -/
noncomputable def pvector (circ : List (Elem ℝ)) (nv : Nat) (v : Nat → ℂ) (i : List Char → ℂ) : Vec ℂ := fun r =>
  if r < nv then v r else match (vdes circ)[r - nv]? with
    | some e => i (upper e.id)
    | none => 0

theorem pvector_named {nv : Nat} {circ : List (Elem ℝ)} (hu : UniqueVde circ) (v : Nat → ℂ) (i : List Char → ℂ) {s : String}
    (hs : ∃ e ∈ circ, e.vde = true ∧ upper e.id = upper s) :
    pnamed circ nv (pvector circ nv v i) (upper s) = i (upper s) := by
  obtain ⟨e, hm, hv, hus⟩ := hs
  obtain ⟨k, hk⟩ : ∃ k : Nat, (vdes circ)[k]? = some e :=
    List.mem_iff_getElem?.1 (List.mem_filter.2 ⟨hm, hv⟩ : e ∈ vdes circ)
  rw [← hus, pnamed_upper, branchOf_eq hu hk]
  simp [pvector, hk]

/-- the partners of coupled inductors are part of the circuit -/
theorem partner {nv S : Nat} {circ : List (Elem ℝ)} {cmin : ℝ} {D : Mat ℝ} (hd : generateAC circ nv S cmin = .ok D)
    {id : String} {a b : Nat} {l : ℝ} {ic : Option ℝ} {coup : List (Coupling ℝ)} (hm : Elem.L id a b l ic coup ∈ circ)
    {cd : Coupling ℝ} (hc : cd ∈ coup) :
    ∃ e ∈ circ, e.vde = true ∧ upper e.id = upper (if upper id = upper cd.L1 then cd.L2 else cd.L1) := by
  rw [C08_ac_same] at hd
  unfold generateD at hd
  cases hl : loop (dStep circ nv) (⟨fun _ _ => 0, 0⟩ : DState ℝ) circ with
  | error => rw [hl] at hd; simp at hd
  | ok s =>
    obtain ⟨t, t', hf⟩ := loop_isOk_mem hl _ hm
    simp only [dStep] at hf
    cases hcl : loop (couplings circ nv (nv + t.iEq) id) (t.D.put (nv + t.iEq) (nv + t.iEq) (-1 * l)) coup with
    | error => rw [hcl] at hf; simp at hf
    | ok D' =>
      obtain ⟨u, u', hg⟩ := loop_isOk_mem hcl cd hc
      unfold couplings at hg
      cases ho : cd.other id with
      | error => rw [ho] at hg; simp at hg
      | ok o =>
        rw [ho] at hg
        rw [← other_ok ho]
        cases hk : findVdeIndex circ o with
        | error => simp [hk] at hg
        | ok k => exact (findVdeIndex_isOk circ o).1 ⟨k, hk⟩

theorem phasors_vector {nv : Nat} (hnv : 0 < nv) {circ : List (Elem ℝ)} {sys : Sys ℝ} {D : Mat ℝ} {cmin : ℝ}
    (hu : UniqueVde circ) (he : ∀ e ∈ circ, NodesLt nv e) (h : generate circ nv = .ok sys)
    (hd : generateAC circ nv sys.size cmin = .ok D) {ph : String → Option ℂ} {s y : ℂ} {v : Nat → ℂ} {i : List Char → ℂ}
    (ho : Phasors circ nv ph s y v i) :
    Phasors circ nv ph s y (pvector circ nv v i) (pnamed circ nv (pvector circ nv v i)) := by
  have hc := ((C07_assembly_succeeds_iff circ nv).1 ⟨sys, h⟩).2.1
  have hv : ∀ r, r < nv → pvector circ nv v i r = v r := fun r hr => by simp [pvector, hr]
  have hi : ∀ e ∈ circ, e.vde = true → pnamed circ nv (pvector circ nv v i) (upper e.id) = i (upper e.id) :=
    fun e hm hvd => pvector_named hu v i ⟨e, hm, hvd, rfl⟩
  refine ⟨by rw [hv 0 hnv]; exact ho.ground, fun r h0 hr => ?_, fun e hm hvd => ?_⟩
  · rw [hv r hr, ← ho.node r h0 hr]
    congr 2
    apply List.map_congr_left
    intro e hm
    have hn := he e hm
    have hie := hi e hm
    have hce := hc e hm
    congr 1
    cases e <;> simp only [NodesLt, pcur, Elem.vde, Elem.id, true_implies, CtrlExists] at hn hie hce ⊢
    case R => rw [hv _ hn.1, hv _ hn.2]
    case C => rw [hv _ hn.1, hv _ hn.2]
    case G => rw [hv _ hn.2.2.1, hv _ hn.2.2.2]
    case F => rw [pvector_named hu v i hce]
    all_goals exact hie
  · rw [← ho.branch e hm hvd]
    have hn := he e hm
    have hie := hi e hm hvd
    have hce := hc e hm
    cases e <;> simp only [NodesLt, plaw, Elem.id, CtrlExists] at hn hie hce ⊢
    case V => rw [hv _ hn.1, hv _ hn.2]
    case E => rw [hv _ hn.1, hv _ hn.2.1, hv _ hn.2.2.1, hv _ hn.2.2.2]
    case H => rw [hv _ hn.1, hv _ hn.2, pvector_named hu v i hce]
    case L id a b l ic coup =>
      rw [hv _ hn.1, hv _ hn.2, pflux, pflux, hie]
      congr 4
      apply List.map_congr_left
      intro cd hcd
      rw [pvector_named hu v i (partner hd hm hcd)]

/-- the input of `ac_analysis` for a linear circuit -/
noncomputable def acOf (m nv : Nat) (s : Sys ℝ) (D : Mat ℝ) (N : Vec ℂ) (gmin : ℝ) : Ac.AcIn m :=
  ⟨reduce m s.M, reduce m D, 0, reduceV m N, nv - 1, gmin⟩

open Matrix Verif.Ac in
/-- equations of the reduced and of the full system -/
theorem reduced_iff {m nv : Nat} (hnv : 0 < nv) (s : Sys ℝ) (D : Mat ℝ) (N : Vec ℂ) (gmin w g : ℝ) (z : Vec ℂ) (hz : z 0 = 0) :
    Y (acOf m nv s D N gmin) w g *ᵥ (fun j : Fin m => z (j + 1)) + (acOf m nv s D N gmin).Nac = 0 ↔
      Solution nv (m + 1) (cast s.M) (cast D) N (I * w) g z := by
  have hrow : ∀ (M : Mat ℝ) (j : Fin m), mulVec (m + 1) (cast M) z (j + 1) =
      ∑ b : Fin m, (M (j + 1) (b + 1) : ℂ) * z (b + 1) := by
    intro M j
    unfold Mna.mulVec
    rw [Finset.sum_range_succ', hz, mul_zero, add_zero, Finset.sum_range]
    rfl
  have key : ∀ j : Fin m, (Y (acOf m nv s D N gmin) w g *ᵥ (fun j : Fin m => z (j + 1)) + (acOf m nv s D N gmin).Nac) j =
      mulVec (m + 1) (cast s.M) z (j + 1) + I * w * mulVec (m + 1) (cast D) z (j + 1) +
        (if j.val + 1 < nv then g * z (j + 1) else 0) + N (j + 1) := by
    intro j
    rw [Pi.add_apply, hrow, hrow]
    congr 1
    have hent : ∀ b : Fin m, Y (acOf m nv s D N gmin) w g j b = (s.M (j + 1) (b + 1) : ℂ) + I * w * (D (j + 1) (b + 1) : ℂ) +
        (if j = b ∧ j.val < nv - 1 then (g : ℂ) else 0) := by
      intro b
      change ((s.M (j + 1) (b + 1) + (0 : ℝ) : ℝ) : ℂ) + I * w * (D (j + 1) (b + 1) : ℂ) +
        (if j = b ∧ j.val < nv - 1 then (g : ℂ) else 0) = _
      rw [add_zero]
    simp only [Matrix.mulVec, dotProduct, hent, add_mul, Finset.sum_add_distrib]
    congr 1
    · congr 1
      rw [Finset.mul_sum]
      exact Finset.sum_congr rfl fun _ _ => by ring
    · rw [Finset.sum_eq_single j]
      · by_cases hlt : j.val < nv - 1
        · rw [if_pos ⟨rfl, hlt⟩, if_pos (by omega)]
        · rw [if_neg (fun hh => hlt hh.2), if_neg (by omega), zero_mul]
      · intro b _ hbj
        rw [if_neg (fun hh => hbj hh.1.symm), zero_mul]
      · simp
  constructor
  · intro h
    refine ⟨hz, fun r h0 hr => ?_⟩
    obtain ⟨j, rfl⟩ : ∃ j, r = j + 1 := ⟨r - 1, by omega⟩
    have := congrFun h ⟨j, by omega⟩
    rw [key] at this
    exact this
  · rintro ⟨-, h⟩
    funext j
    rw [key]
    exact h (j + 1) (by omega) (by have := j.isLt; omega)

open Matrix Verif.Ac in
/-- C174: the line for every frequency of the sweep holds the phasors that obey the laws at that frequency, and there are no
others. The conductance `g` at the nodes is Gmin, or zero if the equations with Gmin are singular. -/
theorem C174_results {nv m : Nat} (hnv : 0 < nv) {circ : List (Elem ℝ)} {sys : Sys ℝ} {D : Mat ℝ} {cmin : ℝ}
    (hu : UniqueVde circ) (he : ∀ e ∈ circ, NodesLt nv e) (hp : ∀ e ∈ circ, Proper e) (h : generate circ nv = .ok sys)
    (hm : sys.size = m + 1) (hd : generateAC circ nv sys.size cmin = .ok D) (ph : String → Option ℂ) (gmin : ℝ)
    {o : AOpts} (ho : Default o) (t : SweepType) (start stop : ℝ) (points : Nat) (x0 : Fin m → ℂ)
    {pts : List (ℝ × (Fin m → ℂ))}
    (hr : acAnalysis o ⟨reduce m sys.M, reduce m D, 0, reduceV m (genNac (circ.map (lift ph)) nv).2, nv - 1, gmin⟩
      t start stop points x0 = .ok (some pts)) (p : ℝ × (Fin m → ℂ)) (hpt : p ∈ pts) :
    let s : ℂ := I * (2 * Real.pi * p.1 : ℝ)
    ∃ g : ℝ, (g = gmin ∨ g = 0) ∧ Phasors circ nv ph s (g + s * cmin) (Rlc.ext p.2) (pnamed circ nv (Rlc.ext p.2)) ∧
      ∀ v i, Phasors circ nv ph s (g + s * cmin) v i → (∀ r, r < nv → v r = Rlc.ext p.2 r) ∧
        ∀ e ∈ circ, e.vde = true → i (upper e.id) = Rlc.ext p.2 (nv + branchOf circ e.id) := by
  intro s
  have hS := (generate_row (fun _ => (0 : ℝ)) he hp h).1
  change acAnalysis o (acOf m nv sys D (genNac (circ.map (lift ph)) nv).2 gmin) t start stop points x0 = .ok (some pts) at hr
  set N := (genNac (circ.map (lift ph)) nv).2 with hN
  set c := acOf m nv sys D N gmin with hc
  have hsol : Solves c (2 * Real.pi * p.1) p.2 := by
    unfold acAnalysis at hr
    cases hw : omegas t start stop points (points + 2) with
    | error e => rw [hw] at hr; cases hr
    | ok ws =>
      rw [hw] at hr
      rcases sweep_spec ho c ws x0 [] with ⟨-, e⟩ | ⟨-, q, e, f⟩
      · simp [e] at hr
      · simp only [e, List.nil_append] at hr
        cases hr
        have : ∀ {ws : List ℝ} {q : List (ℝ × (Fin m → ℂ))},
            List.Forall₂ (fun w p => p.1 = w / Real.pi / 2 ∧ Solves c w p.2) ws q → p ∈ q → Solves c (2 * Real.pi * p.1) p.2 := by
          intro ws q hf
          induction hf with
          | nil => intro h; cases h
          | cons hh _ ih =>
            intro hpm
            rcases List.mem_cons.1 hpm with rfl | h'
            · rw [hh.1]
              have hpi := Real.pi_pos.ne'
              have : ∀ w : ℝ, 2 * Real.pi * (w / Real.pi / 2) = w := fun w => by field_simp
              rw [this]
              exact hh.2
            · exact ih h'
        exact this f hpt
  have hx : (fun j : Fin m => Rlc.ext p.2 (j + 1)) = p.2 := by
    funext j
    simp [Rlc.ext, j.isLt]
  have main : ∀ g : ℝ, (Y c (2 * Real.pi * p.1) g).det ≠ 0 → Y c (2 * Real.pi * p.1) g *ᵥ p.2 + c.Nac = 0 →
      Phasors circ nv ph s (g + s * cmin) (Rlc.ext p.2) (pnamed circ nv (Rlc.ext p.2)) ∧
      ∀ v i, Phasors circ nv ph s (g + s * cmin) v i → (∀ r, r < nv → v r = Rlc.ext p.2 r) ∧
        ∀ e ∈ circ, e.vde = true → i (upper e.id) = Rlc.ext p.2 (nv + branchOf circ e.id) := by
    intro g hg0 hg
    have e1 := (reduced_iff (m := m) hnv sys D N gmin (2 * Real.pi * p.1) g (Rlc.ext p.2) rfl).1 (by rw [hx]; exact hg)
    rw [← hm] at e1
    refine ⟨(C174_phasors hnv hu he hp h hd ph s g _).1 e1, fun v i hvi => ?_⟩
    have e2 := (C174_phasors hnv hu he hp h hd ph s g _).2 (phasors_vector hnv hu he h hd hvi)
    rw [hm] at e2
    have e3 := (reduced_iff (m := m) hnv sys D N gmin (2 * Real.pi * p.1) g _ e2.1).2 e2
    have e4 : (fun j : Fin m => pvector circ nv v i (j + 1)) = p.2 := by
      have hu' : IsUnit (Y c (2 * Real.pi * p.1) g).det := isUnit_iff_ne_zero.2 hg0
      have e5 : Y c (2 * Real.pi * p.1) g *ᵥ (fun j : Fin m => pvector circ nv v i (j + 1)) =
          Y c (2 * Real.pi * p.1) g *ᵥ p.2 := add_right_cancel (e3.trans hg.symm)
      have := congrArg (fun u => (Y c (2 * Real.pi * p.1) g)⁻¹ *ᵥ u) e5
      simpa only [Matrix.mulVec_mulVec, Matrix.nonsing_inv_mul _ hu', Matrix.one_mulVec] using this
    have e6 : ∀ r, r < m + 1 → pvector circ nv v i r = Rlc.ext p.2 r := by
      intro r hr
      cases r with
      | zero => rw [e2.1]; rfl
      | succ r =>
        have := congrFun e4 ⟨r, by omega⟩
        rw [show Rlc.ext p.2 (r + 1) = p.2 ⟨r, by omega⟩ by simp [Rlc.ext, show r < m by omega]]
        exact this
    refine ⟨fun r hr => ?_, fun e hme hv => ?_⟩
    · rw [← e6 r (by omega)]; simp [pvector, hr]
    · obtain ⟨k, hk⟩ : ∃ k : Nat, (vdes circ)[k]? = some e :=
        List.mem_iff_getElem?.1 (List.mem_filter.2 ⟨hme, hv⟩ : e ∈ vdes circ)
      have hlt : k < (vdes circ).length := (List.getElem?_eq_some_iff.1 hk).1
      rw [branchOf_eq hu hk, ← e6 (nv + k) (by omega)]
      simp [pvector, hk]
  rcases hsol with ⟨a, b⟩ | ⟨-, a, b⟩
  · exact ⟨gmin, .inl rfl, main gmin a b⟩
  · exact ⟨0, .inr rfl, main 0 a b⟩

/-! ### Consequences -/

theorem inj_parallel (a b : Nat) (x y : ℂ) (r : Nat) : inj a b x r + inj a b y r = inj a b (x + y) r := (inj_add' a b x y r).symm

/-- C174: capacitors in parallel act as one with the sum of the capacitances, at every frequency. -/
theorem C174_capacitors (X : List (Elem ℝ)) (nv : Nat) (ph : String → Option ℂ) (s y : ℂ) (v : Nat → ℂ) (i : List Char → ℂ)
    (a b : Nat) (c1 c2 : ℝ) (id id1 id2 : String) (ic ic1 ic2 : Option ℝ) :
    Phasors (X ++ [.C id1 a b c1 ic1, .C id2 a b c2 ic2]) nv ph s y v i ↔
      Phasors (X ++ [.C id a b (c1 + c2) ic]) nv ph s y v i := by
  have hn : ∀ r, ((X ++ [Elem.C id1 a b c1 ic1, Elem.C id2 a b c2 ic2]).map fun e => inj (term e).1 (term e).2 (pcur ph s v i e) r).sum =
      ((X ++ [Elem.C id a b (c1 + c2) ic]).map fun e => inj (term e).1 (term e).2 (pcur ph s v i e) r).sum := by
    intro r
    simp only [List.map_append, List.map_cons, List.map_nil, List.sum_append, List.sum_cons, List.sum_nil, add_zero, pcur, term,
      inj_parallel]
    congr 2
    push_cast
    ring
  constructor
  · rintro ⟨h0, h1, h2⟩
    refine ⟨h0, fun r a b => by rw [← hn]; exact h1 r a b, fun e he hv => ?_⟩
    rcases List.mem_append.1 he with h | h
    · exact h2 e (by simp [h]) hv
    · rw [List.mem_singleton.1 h] at hv; cases hv
  · rintro ⟨h0, h1, h2⟩
    refine ⟨h0, fun r a b => by rw [hn]; exact h1 r a b, fun e he hv => ?_⟩
    rcases List.mem_append.1 he with h | h
    · exact h2 e (by simp [h]) hv
    · simp only [List.mem_cons, List.not_mem_nil, or_false] at h
      rcases h with rfl | rfl <;> cases hv

/-- C174: resistors in parallel act as one with the sum of the conductances. -/
theorem C174_resistors (X : List (Elem ℝ)) (nv : Nat) (ph : String → Option ℂ) (s y : ℂ) (v : Nat → ℂ) (i : List Char → ℂ)
    (a b : Nat) (r1 r2 : ℝ) (id id1 id2 : String) :
    Phasors (X ++ [.R id1 a b r1, .R id2 a b r2]) nv ph s y v i ↔
      Phasors (X ++ [.R id a b (1 / (1 / r1 + 1 / r2))]) nv ph s y v i := by
  have hn : ∀ r, ((X ++ [Elem.R id1 a b r1, Elem.R id2 a b r2]).map fun e => inj (term e).1 (term e).2 (pcur ph s v i e) r).sum =
      ((X ++ [Elem.R id a b (1 / (1 / r1 + 1 / r2))]).map fun e => inj (term e).1 (term e).2 (pcur ph s v i e) r).sum := by
    intro r
    simp only [List.map_append, List.map_cons, List.map_nil, List.sum_append, List.sum_cons, List.sum_nil, add_zero, pcur, term,
      inj_parallel]
    congr 2
    push_cast
    simp only [div_eq_mul_inv, inv_inv, one_mul]
    ring
  constructor
  · rintro ⟨h0, h1, h2⟩
    refine ⟨h0, fun r a b => by rw [← hn]; exact h1 r a b, fun e he hv => ?_⟩
    rcases List.mem_append.1 he with h | h
    · exact h2 e (by simp [h]) hv
    · rw [List.mem_singleton.1 h] at hv; cases hv
  · rintro ⟨h0, h1, h2⟩
    refine ⟨h0, fun r a b => by rw [hn]; exact h1 r a b, fun e he hv => ?_⟩
    rcases List.mem_append.1 he with h | h
    · exact h2 e (by simp [h]) hv
    · simp only [List.mem_cons, List.not_mem_nil, or_false] at h
      rcases h with rfl | rfl <;> cases hv

/-- the low-pass filter -/
def lowpass (r c : ℝ) : List (Elem ℝ) :=
  [.V "V1" 1 0 { dc := some 0, ac := some 1 }, .R "R1" 1 2 r, .C "C1" 2 0 c none]

/-- C174: the transfer function of every low-pass filter, loaded by the admittance `y` (textbook: `y = 0`). -/
theorem C174_lowpass {r c : ℝ} (hr : r ≠ 0) (A s y : ℂ) (hy : 1 + s * (r * c) + y * r ≠ 0) {v : Nat → ℂ} {i : List Char → ℂ}
    (h : Phasors (lowpass r c) 3 (fun _ => some A) s y v i) : v 2 = A / (1 + s * (r * c) + y * r) := by
  have h1 := h.branch _ (by simp [lowpass] : (Elem.V "V1" 1 0 { dc := some (0 : ℝ), ac := some 1 } : Elem ℝ) ∈ lowpass r c) rfl
  have h2 := h.node 2 (by omega) (by omega)
  simp only [plaw, h.ground, Option.getD_some, sub_zero, sub_eq_zero] at h1
  simp [lowpass, term, inj, pcur, h.ground, h1] at h2
  have hr' : (r : ℂ) ≠ 0 := by exact_mod_cast hr
  rw [eq_div_iff hy]
  field_simp at h2
  linear_combination h2

example : ∃ sys : Sys ℝ, generate (lowpass 1000 (1 / 1000000)) 3 = .ok sys ∧ sys.size = 3 + 1 := by
  have hex : ∃ sys : Sys ℝ, generate (lowpass 1000 (1 / 1000000)) 3 = .ok sys :=
    (C07_assembly_succeeds_iff _ _).2 (by
      simp [lowpass, CtrlExists, DcGiven]
      intro pre post id n1 n2 src a hh
      have : Elem.H id n1 n2 src a ∈ pre ++ Elem.H id n1 n2 src a :: post := by simp
      rw [← hh] at this
      simp at this)
  obtain ⟨sys, hs⟩ := hex
  refine ⟨sys, hs, ?_⟩
  have := (generate_row (fun _ => (0 : ℝ)) (by simp [lowpass, NodesLt]) (by simp [lowpass, Proper]) hs).1
  rw [this]
  rfl

example : UniqueVde (lowpass 1000 (1 / 1000000)) := by
  unfold UniqueVde
  simp [vdes, lowpass, List.filter, Elem.vde]

/-- at the corner frequency the output lags by 45 degrees -/
example : Phasors (lowpass 1000 (1 / 1000000)) 3 (fun _ => some 1) (I * 1000) 0
    (fun n => if n = 1 then 1 else if n = 2 then (1 - I) / 2 else 0) (fun _ => -(1 + I) / 2000) := by
  refine ⟨by simp, fun r h0 hr => ?_, fun e he hv => ?_⟩
  · have : r = 1 ∨ r = 2 := by omega
    rcases this with rfl | rfl
    · simp [lowpass, term, inj, pcur]; ring
    · simp [lowpass, term, inj, pcur]; ring_nf; rw [Complex.I_sq]; ring
  · simp only [lowpass, List.mem_cons, List.not_mem_nil, or_false] at he
    rcases he with rfl | rfl | rfl
    · simp [plaw]
    · cases hv
    · cases hv

example : ∃ D : Mat ℝ, generateAC (lowpass 1000 (1 / 1000000)) 3 4 0 = .ok D := ⟨_, rfl⟩

end Verif.AcLaws
