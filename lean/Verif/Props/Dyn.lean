import Verif.Proof.Dyn
import Verif.Props.Passive
import Mathlib.Tactic.LinearCombination

/-!
Properties C08 (dynamic matrix) and C09 (mutual inductance).
-/

namespace Verif.Dyn
open Verif.Circuit Verif.Mna

variable {α : Type} [Field α]

/-! ### C08 -/

/-- displacement current of a capacitor for the voltage derivatives `dx` (spec) -/
def capCurrent (dx : Vec α) : Elem α → α
  | .C _ n1 n2 c _ => c * (dx n1 - dx n2)
  | _ => 0

/-- sum over the couplings of an inductor of M times the derivative of the current of the
other inductor (spec) -/
def mutualTerm (circ : List (Elem α)) (nv : Nat) (dx : Vec α) (id : String)
    (coup : List (Coupling α)) : α :=
  (coup.map (fun cd => cd.M * dx (nv + branchOf circ
    (if upper id = upper cd.L1 then cd.L2 else cd.L1)))).sum

/-- dynamic part of the branch equation of a voltage-defined element (spec) -/
def flux (circ : List (Elem α)) (nv : Nat) (dx : Vec α) (k : Nat) : Elem α → α
  | .L id _ _ l _ coup => -(l * dx (nv + k)) - mutualTerm circ nv dx id coup
  | _ => 0

/-- C08: the node rows of the dynamic matrix are the displacement currents of the
capacitors leaving the node, plus `cmin` from the node to the reference. -/
theorem C08_node_rows {nv : Nat} {circ : List (Elem α)} {cmin : α} {D : Mat α}
    (he : ∀ e ∈ circ, NodesLt nv e)
    (h : generateD circ nv (nv + (vdes circ).length) cmin = .ok D)
    (dx : Vec α) (h0 : dx 0 = 0) (r : Nat) (hr : 0 < r) (hlt : r < nv) :
    mulVec (nv + (vdes circ).length) D dx r =
      (circ.map (fun e => inj (term e).1 (term e).2 (capCurrent dx e) r)).sum + cmin * dx r := by
  rw [generateD_row dx he h, cmin_row (by omega) dx h0 r hr, if_pos hlt]
  congr 1
  have key : ∀ (l : List (Elem α)) (k : Nat), cDsum circ nv dx l k r =
      (l.map (fun e => inj (term e).1 (term e).2 (capCurrent dx e) r)).sum := by
    intro l
    induction l with
    | nil => intros; rfl
    | cons e t ih =>
      intro k
      simp only [cDsum, List.map_cons, List.sum_cons, ih]
      congr 1
      cases e with
      | C => rfl
      | L => simp only [cD, capCurrent]; rw [if_neg (by omega)]; simp [inj]
      | R | K | V | I | E | G | F | H | NL => simp [cD, capCurrent, inj]
  exact key circ 0

/-- all couplings attached to an inductor mention it -/
def CoupOk : Elem α → Prop
  | .L id _ _ _ _ coup => ∀ cd ∈ coup, upper id = upper cd.L1 ∨ upper id = upper cd.L2
  | _ => True

theorem loop_isOk_mem {σ ε ι : Type} {f : σ → ι → Except ε σ} {s s' : σ} {l : List ι}
    (h : loop f s l = .ok s') : ∀ a ∈ l, ∃ t t', f t a = .ok t' := by
  induction l generalizing s with
  | nil => simp
  | cons e t ih =>
    simp only [loop] at h
    cases hs : f s e with
    | error => rw [hs] at h; simp at h
    | ok s1 =>
      rw [hs] at h
      intro a ha
      rcases List.mem_cons.mp ha with rfl | hm
      · exact ⟨s, s1, hs⟩
      · exact ih h a hm

theorem other_ok {cd : Coupling α} {id o : String} (h : cd.other id = .ok o) :
    o = (if upper id = upper cd.L1 then cd.L2 else cd.L1) := by
  unfold Coupling.other at h
  split_ifs at h with h1 h2
  · simp only [Except.ok.injEq] at h; rw [if_pos h1, h]
  · simp only [Except.ok.injEq] at h; rw [if_neg h1, h]

theorem induced_eq {nv row : Nat} {circ : List (Elem α)} {id : String} {D D' : Mat α}
    {coup : List (Coupling α)} (h : loop (couplings circ nv row id) D coup = .ok D') (x : Vec α) :
    induced circ nv x id coup = mutualTerm circ nv x id coup := by
  unfold induced mutualTerm
  congr 1
  apply List.map_congr_left
  intro cd hm
  obtain ⟨t, t', hf⟩ := loop_isOk_mem h cd hm
  unfold couplings at hf
  cases ho : cd.other id with
  | error => rw [ho] at hf; simp at hf
  | ok o => simp only [other_ok ho]

/-- C08: the row of the branch of an inductor is minus its inductance times the derivative
of its own current minus the mutual terms; the rows of the other voltage-defined elements
are zero. -/
theorem C08_branch_rows {nv : Nat} {circ : List (Elem α)} {cmin : α} {D : Mat α}
    (h0 : 0 < nv) (he : ∀ e ∈ circ, NodesLt nv e)
    (h : generateD circ nv (nv + (vdes circ).length) cmin = .ok D)
    (dx : Vec α) (hx : dx 0 = 0) (k : Nat) (e : Elem α) (hk : (vdes circ)[k]? = some e) :
    mulVec (nv + (vdes circ).length) D dx (nv + k) = flux circ nv dx k e := by
  have hall : ∀ id n1 n2 v ic coup, Elem.L id n1 n2 v ic coup ∈ circ →
      induced circ nv dx id coup = mutualTerm circ nv dx id coup := by
    intro id n1 n2 v ic coup hm
    unfold generateD at h
    cases hl : loop (dStep circ nv) (⟨fun _ _ => 0, 0⟩ : DState α) circ with
    | error => rw [hl] at h; simp at h
    | ok s =>
      obtain ⟨t, t', hf⟩ := loop_isOk_mem hl _ hm
      simp only [dStep] at hf
      cases hc : loop (couplings circ nv (nv + t.iEq) id)
        (t.D.put (nv + t.iEq) (nv + t.iEq) (-1 * v)) coup with
      | error => rw [hc] at hf; simp at hf
      | ok D' => exact induced_eq hc dx
  rw [generateD_row dx he h, cmin_row (by omega) dx hx _ (by omega), if_neg (by omega), mul_zero,
    add_zero]
  have low : ∀ (l : List (Elem α)) (j m : Nat), (∀ e ∈ l, NodesLt nv e) → m < j →
      cDsum circ nv dx l j (nv + m) = 0 := by
    intro l
    induction l with
    | nil => intros; rfl
    | cons a t ih =>
      intro j m hl hm
      simp only [cDsum]
      rw [ih _ m (fun e' h' => hl e' (List.mem_cons_of_mem _ h')) (by omega), add_zero]
      have hn := hl a (List.mem_cons_self ..)
      cases a <;> simp only [NodesLt] at hn <;> simp only [cD]
      · simp only [inj]; rw [if_neg (by omega), if_neg (by omega), sub_zero]
      · rw [if_neg (by omega)]
  have key : ∀ (l : List (Elem α)) (j m : Nat), (∀ e ∈ l, NodesLt nv e) → (∀ e ∈ l, e ∈ circ) →
      (vdes l)[m]? = some e → cDsum circ nv dx l j (nv + (j + m)) = flux circ nv dx (j + m) e := by
    intro l
    induction l with
    | nil => intro j m _ _ hm; simp [vdes_nil] at hm
    | cons a t ih =>
      intro j m hl hc hm
      have hlt := fun e' h' => hl e' (List.mem_cons_of_mem a h')
      have hct := fun e' h' => hc e' (List.mem_cons_of_mem a h')
      simp only [cDsum]
      rw [vdes_cons] at hm
      by_cases hv : a.vde = true
      · simp only [hv, if_true] at hm ⊢
        cases m with
        | zero =>
          simp only [List.getElem?_cons_zero, Option.some.injEq] at hm; subst hm
          rw [low t (j + 1) (j + 0) hlt (by omega), add_zero]
          cases a with
          | L id n1 n2 v ic coup =>
            simp only [cD, flux, Nat.add_zero, if_true]
            rw [hall id n1 n2 v ic coup (hc _ (List.mem_cons_self ..))]
          | V | E | H => rfl
          | R | C | K | I | G | F | NL => simp [Elem.vde] at hv
        | succ m =>
          simp only [List.getElem?_cons_succ] at hm
          have := ih (j + 1) m hlt hct hm
          rw [show j + (m + 1) = j + 1 + m by omega, this]
          have hz : cD circ nv dx j a (nv + (j + 1 + m)) = 0 := by
            cases a with
            | L => simp only [cD]; rw [if_neg (by omega)]
            | V | E | H => rfl
            | R | C | K | I | G | F | NL => simp [Elem.vde] at hv
          rw [hz, zero_add]
      · simp only [hv] at hm ⊢
        have := ih j m hlt hct (by simpa using hm)
        have hn := hl a (List.mem_cons_self ..)
        simp only [Bool.false_eq_true, if_false, Nat.add_zero]
        rw [this]
        have hz : cD circ nv dx j a (nv + (j + m)) = 0 := by
          cases a with
          | C =>
            simp only [NodesLt] at hn
            simp only [cD, inj]; rw [if_neg (by omega), if_neg (by omega), sub_zero]
          | L | V | E | H => simp [Elem.vde] at hv
          | R | K | I | G | F | NL => rfl
        rw [hz, zero_add]
  have := key circ 0 k he (fun _ h => h) hk
  simpa using this

/-- C08: the AC analysis builds entry by entry the same matrix as the transient analysis
(and fails in the same cases). -/
theorem C08_ac_same (circ : List (Elem α)) (nv S : Nat) (cmin : α) :
    generateAC circ nv S cmin = generateD circ nv S cmin := by
  have hc : couplingsAC circ nv = couplings circ nv := by
    funext row id D cd; rfl
  have hs : acStep circ nv = dStep circ nv := by
    funext s e
    cases e <;> simp only [acStep, dStep, hc]
  have hm : (cminMatAC : Nat → Mat α) = cminMat := by
    funext n i j; rfl
  unfold generateAC generateD
  rw [hs, hm]

/-- two coupled inductors around a voltage source, with a capacitor -/
def dynDemo : List (Elem ℚ) :=
  let cd : Coupling ℚ := ⟨"K1", "L1", "L2", 1/2, 3⟩
  [.L "L1" 1 0 4 none [cd], .V "V1" 1 0 { dc := some 1 }, .C "C1" 1 2 7 none,
   .L "L2" 2 0 9 none [cd], .K cd]

example : (∀ e ∈ dynDemo, NodesLt 3 e) := by simp [dynDemo, NodesLt]
example : ((generateD dynDemo 3 6 0).toOption.map
    (fun D => (List.range 6).map (fun i => (List.range 6).map (D i)))) =
    some [[0,0,0,0,0,0],[0,7,-7,0,0,0],[0,-7,7,0,0,0],[0,0,0,-4,0,-3],[0,0,0,0,0,0],[0,0,0,-3,0,-9]] := by
  decide +kernel

/-! ### C09 -/

section Energy
variable [LinearOrder α] [IsStrictOrderedRing α]

/-- C09: with `M = k*q`, `q` the square root of `L1*L2` and `|k| ≤ 1`, the magnetic energy of
a coupled pair is never negative. -/
theorem C09_energy_nonneg (l1 l2 q k i1 i2 : α) (h1 : 0 ≤ l1) (h2 : 0 ≤ l2)
    (hq : q * q = l1 * l2) (hk : |k| ≤ 1) :
    0 ≤ l1 * i1 * i1 / 2 + l2 * i2 * i2 / 2 + q * k * i1 * i2 := by
  have hk2 : k * k ≤ 1 := by
    have := abs_mul_abs_self k
    have h0 := abs_nonneg k
    nlinarith
  rcases h1.lt_or_eq with hpos | hz
  · have e : l1 * (l1 * i1 * i1 / 2 + l2 * i2 * i2 / 2 + q * k * i1 * i2) =
        ((l1 * i1 + q * k * i2) * (l1 * i1 + q * k * i2) + l1 * l2 * (1 - k * k) * (i2 * i2)) / 2 := by
      have : q * k * i2 * (q * k * i2) = l1 * l2 * (k * k) * (i2 * i2) := by
        rw [← hq]; ring
      linear_combination (-1/2) * this
    have hn : 0 ≤ l1 * (l1 * i1 * i1 / 2 + l2 * i2 * i2 / 2 + q * k * i1 * i2) := by
      rw [e]
      apply div_nonneg _ (by norm_num)
      apply add_nonneg (mul_self_nonneg _)
      exact mul_nonneg (mul_nonneg (mul_nonneg h1 h2) (by linarith)) (mul_self_nonneg _)
    exact nonneg_of_mul_nonneg_right hn hpos
  · have hq0 : q = 0 := by
      rw [← hz, zero_mul] at hq
      exact mul_self_eq_zero.mp hq
    rw [← hz, hq0]
    have : 0 ≤ l2 * (i2 * i2) := mul_nonneg h2 (mul_self_nonneg _)
    have e : (0:α) * i1 * i1 / 2 + l2 * i2 * i2 / 2 + 0 * k * i1 * i2 = l2 * (i2 * i2) / 2 := by ring
    rw [e]
    exact div_nonneg this (by norm_num)

example : (0:ℚ) ≤ 4 * 1 * 1 / 2 + 9 * (-1) * (-1) / 2 + 6 * 1 * 1 * (-1) :=
  C09_energy_nonneg 4 9 6 1 1 (-1) (by norm_num) (by norm_num) (by norm_num) (by norm_num)

/-- C09: the bound on the coupling is needed: an over-unity coupling stores negative energy. -/
theorem C09_overunity_negative :
    ∃ l1 l2 q k i1 i2 : ℚ, 0 ≤ l1 ∧ 0 ≤ l2 ∧ q * q = l1 * l2 ∧ 1 < k ∧
      l1 * i1 * i1 / 2 + l2 * i2 * i2 / 2 + q * k * i1 * i2 < 0 :=
  ⟨1, 1, 1, 2, 1, -1, by norm_num, by norm_num, by norm_num, by norm_num, by norm_num⟩

end Energy

/-- an inductor with the given name -/
def IsInd (e : Elem α) (name : String) : Prop :=
  ∃ n1 n2 v ic coup, e = .L name n1 n2 v ic coup

theorem findPair_spec (L1 L2 : String) (full l : List (Elem α)) (i : Nat)
    (acc : Option Nat × Option Nat)
    (hl : ∀ j, l[j]? = full[i + j]?)
    (ha : (∀ a, acc.1 = some a → ∃ e, full[a]? = some e ∧ IsInd e L1) ∧
      (∀ a, acc.2 = some a → L1 ≠ L2 ∧ ∃ e, full[a]? = some e ∧ IsInd e L2)) :
    (∀ a, (findPair L1 L2 l i acc).1 = some a → ∃ e, full[a]? = some e ∧ IsInd e L1) ∧
    (∀ a, (findPair L1 L2 l i acc).2 = some a → L1 ≠ L2 ∧ ∃ e, full[a]? = some e ∧ IsInd e L2) := by
  induction l generalizing i acc with
  | nil => exact ha
  | cons e r ih =>
    simp only [findPair]
    have h0 : full[i]? = some e := by have := hl 0; simpa using this.symm
    apply ih (i + 1)
    · intro j
      have := hl (j + 1)
      rw [List.getElem?_cons_succ] at this
      rw [this]; congr 1; omega
    · cases e with
      | L id n1 n2 v ic coup =>
        simp only
        split_ifs with h1 h2
        · subst h1
          refine ⟨fun a hh => ?_, ha.2⟩
          simp only [Option.some.injEq] at hh; subst hh
          exact ⟨_, h0, _, _, _, _, _, rfl⟩
        · subst h2
          refine ⟨ha.1, fun a hh => ?_⟩
          simp only [Option.some.injEq] at hh; subst hh
          exact ⟨h1, _, h0, _, _, _, _, _, rfl⟩
        · exact ha
      | R | C | K | V | I | E | G | F | H | NL => exact ha

/-- what a successful coupling did -/
theorem addCoupling_ok {sqrt : α → Option α} {circ circ' : List (Elem α)} {id L1 L2 : String} {k : α}
    (h : addCoupling sqrt circ id L1 L2 k = .ok circ') :
    ∃ i j e1 e2 q, L1 ≠ L2 ∧ circ[i]? = some e1 ∧ circ[j]? = some e2 ∧ IsInd e1 L1 ∧ IsInd e2 L2 ∧
      sqrt (indValue e1 * indValue e2) = some q ∧
      circ' = ((circ.modify i (attach ⟨id, L1, L2, k, q * k⟩)).modify j
        (attach ⟨id, L1, L2, k, q * k⟩)) ++ [.K ⟨id, L1, L2, k, q * k⟩] := by
  unfold addCoupling at h
  obtain ⟨s1, s2⟩ := findPair_spec L1 L2 circ circ 0 (none, none) (fun j => by simp)
    ⟨by simp, by simp⟩
  split at h
  · rename_i i j hp
    rw [hp] at s1 s2
    obtain ⟨e1, h1, i1⟩ := s1 i rfl
    obtain ⟨hne, e2, h2, i2⟩ := s2 j rfl
    rw [h1, h2] at h
    simp only at h
    cases hq : sqrt (indValue e1 * indValue e2) with
    | none => rw [hq] at h; simp at h
    | some q =>
      rw [hq] at h
      simp only [Except.ok.injEq] at h
      exact ⟨i, j, e1, e2, q, hne, h1, h2, i1, i2, hq, h.symm⟩
  · simp at h

theorem addCoupling_error {sqrt : α → Option α} {circ : List (Elem α)} {id L1 L2 : String} {k : α}
    (h : ∀ c, addCoupling sqrt circ id L1 L2 k ≠ .ok c) :
    addCoupling sqrt circ id L1 L2 k = .error .value := by
  unfold addCoupling at h ⊢
  split
  · rename_i i j hp
    rw [hp] at h
    simp only at h
    split
    · rename_i e1 e2 h1 h2
      rw [h1, h2] at h
      simp only at h
      split
      · rename_i q hq; rw [hq] at h; simp at h
      · rfl
    · rfl
  · rfl

/-- C09: coupling an inductor with itself is rejected with an error. -/
theorem C09_self_coupling_rejected (sqrt : α → Option α) (circ : List (Elem α)) (id L : String)
    (k : α) : addCoupling sqrt circ id L L k = .error .value := by
  apply addCoupling_error
  intro c hc
  obtain ⟨i, j, e1, e2, q, hne, -⟩ := addCoupling_ok hc
  exact hne rfl

/-- C09: coupling with an inductor that is not in the circuit is rejected with an error. -/
theorem C09_unknown_inductor_rejected (sqrt : α → Option α) (circ : List (Elem α))
    (id L1 L2 : String) (k : α)
    (h : (∀ e ∈ circ, ¬ IsInd e L1) ∨ (∀ e ∈ circ, ¬ IsInd e L2)) :
    addCoupling sqrt circ id L1 L2 k = .error .value := by
  apply addCoupling_error
  intro c hc
  obtain ⟨i, j, e1, e2, q, hne, h1, h2, i1, i2, -⟩ := addCoupling_ok hc
  rcases h with h | h
  · exact h e1 (List.mem_of_getElem? h1) i1
  · exact h e2 (List.mem_of_getElem? h2) i2

/-- C09: the mutual inductance stored for a coupling is `k` times the square root of the
product of the two inductances. -/
theorem C09_mutual_value {sqrt : α → Option α} {circ circ' : List (Elem α)} {id L1 L2 : String}
    {k : α} (h : addCoupling sqrt circ id L1 L2 k = .ok circ') :
    ∃ e1 ∈ circ, ∃ e2 ∈ circ, ∃ q, IsInd e1 L1 ∧ IsInd e2 L2 ∧
      sqrt (indValue e1 * indValue e2) = some q ∧ Elem.K ⟨id, L1, L2, k, q * k⟩ ∈ circ' := by
  obtain ⟨i, j, e1, e2, q, -, h1, h2, i1, i2, hq, hc⟩ := addCoupling_ok h
  exact ⟨e1, List.mem_of_getElem? h1, e2, List.mem_of_getElem? h2, q, i1, i2, hq, by rw [hc]; simp⟩

/-- circuits built by adding elements one at a time (inductors start without couplings,
names of voltage-defined elements are unique up to case) and couplings through the API -/
inductive Built (sqrt : α → Option α) : List (Elem α) → Prop
  | nil : Built sqrt []
  | add {c : List (Elem α)} {e : Elem α} : Built sqrt c →
      (∀ cd, e ≠ .K cd) → (∀ id n1 n2 v ic coup, e = .L id n1 n2 v ic coup → coup = []) →
      (e.vde = true → ∀ e' ∈ c, e'.vde = true → upper e'.id ≠ upper e.id) →
      Built sqrt (c ++ [e])
  | couple {c c' : List (Elem α)} {id L1 L2 : String} {k : α} : Built sqrt c →
      addCoupling sqrt c id L1 L2 k = .ok c' → Built sqrt c'

/-- attach to the inductors with the two names -/
def attachIf (cd : Coupling α) (e : Elem α) : Elem α :=
  if e.vde = true ∧ (e.id = cd.L1 ∨ e.id = cd.L2) then attach cd e else e

theorem attach_id (cd : Coupling α) (e : Elem α) : (attach cd e).id = e.id ∧ (attach cd e).vde = e.vde := by
  cases e <;> exact ⟨rfl, rfl⟩

theorem attachIf_id (cd : Coupling α) (e : Elem α) :
    (attachIf cd e).id = e.id ∧ (attachIf cd e).vde = e.vde := by
  unfold attachIf; split
  · exact attach_id cd e
  · exact ⟨rfl, rfl⟩

theorem unique_pos {c : List (Elem α)} (hu : UniqueVde c) {i j : Nat} {e1 e2 : Elem α}
    (h1 : c[i]? = some e1) (h2 : c[j]? = some e2) (v1 : e1.vde = true) (v2 : e2.vde = true)
    (hid : upper e1.id = upper e2.id) : i = j := by
  unfold UniqueVde at hu
  induction c generalizing i j with
  | nil => simp at h1
  | cons a t ih =>
    have hmem : ∀ (k : Nat) (e : Elem α), t[k]? = some e → e.vde = true →
        upper e.id ∈ (vdes t).map (fun e => upper e.id) := fun k e hk hv =>
      List.mem_map.mpr ⟨e, List.mem_filter.mpr ⟨List.mem_of_getElem? hk, hv⟩, rfl⟩
    rw [vdes_cons] at hu
    cases i with
    | zero =>
      simp only [List.getElem?_cons_zero, Option.some.injEq] at h1; subst h1
      simp only [v1, if_true, List.map_cons, List.nodup_cons] at hu
      cases j with
      | zero => rfl
      | succ j =>
        simp only [List.getElem?_cons_succ] at h2
        exact absurd (hid ▸ hmem j e2 h2 v2) hu.1
    | succ i =>
      simp only [List.getElem?_cons_succ] at h1
      cases j with
      | zero =>
        simp only [List.getElem?_cons_zero, Option.some.injEq] at h2; subst h2
        simp only [v2, if_true, List.map_cons, List.nodup_cons] at hu
        exact absurd (hid ▸ hmem i e1 h1 v1) hu.1
      | succ j =>
        simp only [List.getElem?_cons_succ] at h2
        have : ((vdes t).map (fun e => upper e.id)).Nodup := by
          split at hu
          · exact (List.nodup_cons.mp hu).2
          · exact hu
        rw [ih this h1 h2]

theorem IsInd.vde {e : Elem α} {name : String} (h : IsInd e name) : e.vde = true ∧ e.id = name := by
  obtain ⟨_, _, _, _, _, rfl⟩ := h; exact ⟨rfl, rfl⟩

theorem addCoupling_map_value {sqrt : α → Option α} {c c' : List (Elem α)} {id L1 L2 : String} {k : α}
    (hu : UniqueVde c) (h : addCoupling sqrt c id L1 L2 k = .ok c') :
    ∃ q, L1 ≠ L2 ∧ (∃ e1 ∈ c, ∃ e2 ∈ c, IsInd e1 L1 ∧ IsInd e2 L2 ∧ sqrt (indValue e1 * indValue e2) = some q) ∧
      c' = c.map (attachIf ⟨id, L1, L2, k, q * k⟩) ++ [.K ⟨id, L1, L2, k, q * k⟩] := by
  obtain ⟨i, j, e1, e2, q, hne, h1, h2, i1, i2, hq, rfl⟩ := addCoupling_ok h
  refine ⟨q, hne, ⟨e1, List.mem_of_getElem? h1, e2, List.mem_of_getElem? h2, i1, i2, hq⟩, ?_⟩
  congr 1
  apply List.ext_getElem?
  intro p
  rw [List.getElem?_modify, List.getElem?_modify, List.getElem?_map]
  cases hp : c[p]? with
  | none => simp
  | some e =>
    simp only [Option.map_some, Option.map_eq_map, Option.some.injEq]
    unfold attachIf
    by_cases hc : e.vde = true ∧ (e.id = L1 ∨ e.id = L2)
    · simp only [hc, if_true, and_self]
      rcases hc with ⟨hv, he | he⟩
      · have hi : i = p := unique_pos hu h1 hp i1.vde.1 hv (by rw [i1.vde.2, he])
        have hj : j ≠ p := by
          rintro rfl
          rw [hp] at h2; simp only [Option.some.injEq] at h2
          exact hne (he ▸ h2 ▸ i2.vde.2)
        rw [if_pos hi, if_neg hj]
      · have hj : j = p := unique_pos hu h2 hp i2.vde.1 hv (by rw [i2.vde.2, he])
        have hi : i ≠ p := by
          rintro rfl
          rw [hp] at h1; simp only [Option.some.injEq] at h1
          exact hne ((he ▸ h1 ▸ i1.vde.2 : L2 = L1).symm)
        rw [if_pos hj, if_neg hi]
    · rw [if_neg hc]
      have hi : i ≠ p := by
        rintro rfl
        rw [hp] at h1; simp only [Option.some.injEq] at h1; subst h1
        exact hc ⟨i1.vde.1, .inl i1.vde.2⟩
      have hj : j ≠ p := by
        rintro rfl
        rw [hp] at h2; simp only [Option.some.injEq] at h2; subst h2
        exact hc ⟨i2.vde.1, .inr i2.vde.2⟩
      rw [if_neg hi, if_neg hj]

theorem addCoupling_map {sqrt : α → Option α} {c c' : List (Elem α)} {id L1 L2 : String} {k : α}
    (hu : UniqueVde c) (h : addCoupling sqrt c id L1 L2 k = .ok c') :
    ∃ q, L1 ≠ L2 ∧ (∃ e ∈ c, IsInd e L1) ∧ (∃ e ∈ c, IsInd e L2) ∧
      c' = c.map (attachIf ⟨id, L1, L2, k, q * k⟩) ++ [.K ⟨id, L1, L2, k, q * k⟩] := by
  obtain ⟨q, h1, ⟨e1, m1, e2, m2, i1, i2, -⟩, h3⟩ := addCoupling_map_value hu h
  exact ⟨q, h1, ⟨e1, m1, i1⟩, ⟨e2, m2, i2⟩, h3⟩

/-- total mutual inductance between two names in a list of couplings -/
def pairSum (A B : List Char) (coup : List (Coupling α)) : α :=
  (coup.map (fun cd => if (upper cd.L1 = A ∧ upper cd.L2 = B) ∨ (upper cd.L1 = B ∧ upper cd.L2 = A)
    then cd.M else 0)).sum

structure BuiltInv (c : List (Elem α)) : Prop where
  uniq : UniqueVde c
  names : ∀ id n1 n2 v ic coup, Elem.L id n1 n2 v ic coup ∈ c → ∀ cd ∈ coup,
    (∃ e ∈ c, IsInd e cd.L1) ∧ (∃ e ∈ c, IsInd e cd.L2) ∧ upper cd.L1 ≠ upper cd.L2 ∧
    (cd.L1 = id ∨ cd.L2 = id)
  symm : ∀ id n1 n2 v ic coup id' n1' n2' v' ic' coup', Elem.L id n1 n2 v ic coup ∈ c →
    Elem.L id' n1' n2' v' ic' coup' ∈ c → upper id ≠ upper id' →
    pairSum (upper id) (upper id') coup = pairSum (upper id) (upper id') coup'

theorem vdes_map_attachIf (cd : Coupling α) (c : List (Elem α)) :
    (vdes (c.map (attachIf cd) ++ [.K cd])).map (fun e => upper e.id) =
      (vdes c).map (fun e => upper e.id) := by
  rw [vdes_append]
  have : vdes [Elem.K cd] = [] := by rfl
  rw [this, List.append_nil]
  induction c with
  | nil => rfl
  | cons e t ih =>
    rw [List.map_cons, vdes_cons, vdes_cons, (attachIf_id cd e).2]
    split
    · simp [ih, (attachIf_id cd e).1]
    · exact ih

theorem attachIf_L {cd : Coupling α} {e : Elem α} {id : String} {n1 n2 : Nat} {v : α} {ic : Option α}
    {coup : List (Coupling α)} (h : attachIf cd e = .L id n1 n2 v ic coup) :
    ∃ c0, e = .L id n1 n2 v ic c0 ∧
      coup = if id = cd.L1 ∨ id = cd.L2 then c0 ++ [cd] else c0 := by
  unfold attachIf at h
  cases e with
  | L i a b w x c0 =>
    simp only [Elem.vde, Elem.id, true_and] at h
    by_cases hc : i = cd.L1 ∨ i = cd.L2
    · rw [if_pos hc] at h
      simp only [attach, Elem.L.injEq] at h
      obtain ⟨rfl, rfl, rfl, rfl, rfl, rfl⟩ := h
      exact ⟨c0, rfl, by rw [if_pos hc]⟩
    · rw [if_neg hc] at h
      simp only [Elem.L.injEq] at h
      obtain ⟨rfl, rfl, rfl, rfl, rfl, rfl⟩ := h
      exact ⟨_, rfl, by rw [if_neg hc]⟩
  | R | C | K | V | I | E | G | F | H | NL => simp only [attach, ite_self, reduceCtorEq] at h

theorem IsInd.attachIf {e : Elem α} {name : String} (cd : Coupling α) (h : IsInd e name) :
    IsInd (attachIf cd e) name := by
  obtain ⟨_, _, _, _, _, rfl⟩ := h
  unfold Dyn.attachIf
  split
  · exact ⟨_, _, _, _, _, rfl⟩
  · exact ⟨_, _, _, _, _, rfl⟩

theorem pairSum_append (A B : List Char) (coup : List (Coupling α)) (cd : Coupling α) :
    pairSum A B (coup ++ [cd]) = pairSum A B coup +
      if (upper cd.L1 = A ∧ upper cd.L2 = B) ∨ (upper cd.L1 = B ∧ upper cd.L2 = A) then cd.M else 0 := by
  unfold pairSum; rw [List.map_append, List.sum_append]; simp

theorem Built.inv {sqrt : α → Option α} {c : List (Elem α)} (h : Built sqrt c) : BuiltInv c := by
  induction h with
  | nil => exact ⟨by simp [UniqueVde, vdes_nil], by simp, by simp⟩
  | @add c e _ hk hl hf ih =>
    refine ⟨?_, ?_, ?_⟩
    · unfold UniqueVde
      rw [vdes_append, List.map_append, List.nodup_append]
      refine ⟨ih.uniq, ?_, ?_⟩
      · rw [vdes_cons, vdes_nil]; split <;> simp
      · intro a ha b hb heq
        obtain ⟨e', he', rfl⟩ := List.mem_map.mp ha
        obtain ⟨e2, he2, rfl⟩ := List.mem_map.mp hb
        obtain ⟨h2m, h2v⟩ := List.mem_filter.mp he2
        simp only [List.mem_singleton] at h2m; subst h2m
        exact hf h2v e' (List.mem_filter.mp he').1 (List.mem_filter.mp he').2 heq
    · intro id n1 n2 v ic coup hm cd hcd
      rcases List.mem_append.mp hm with hm | hm
      · obtain ⟨⟨a, ha, hia⟩, ⟨b, hb, hib⟩, hne, ho⟩ := ih.names id n1 n2 v ic coup hm cd hcd
        exact ⟨⟨a, List.mem_append_left _ ha, hia⟩, ⟨b, List.mem_append_left _ hb, hib⟩, hne, ho⟩
      · simp only [List.mem_singleton] at hm
        have := hl id n1 n2 v ic coup hm.symm
        rw [this] at hcd; simp at hcd
    · intro id n1 n2 v ic coup id' n1' n2' v' ic' coup' hm hm' hne
      have hz : ∀ (id : String) (n1 n2 : Nat) (v : α) (ic : Option α) (coup : List (Coupling α)) (x : String),
          Elem.L id n1 n2 v ic coup ∈ c → e.vde = true → x = e.id →
          pairSum (upper id) (upper x) coup = 0 ∧ pairSum (upper x) (upper id) coup = 0 := by
        intro id n1 n2 v ic coup x hmem hv hx
        have : ∀ cd ∈ coup, upper cd.L1 ≠ upper x ∧ upper cd.L2 ≠ upper x := by
          intro cd hcd
          obtain ⟨⟨a, ha, hia⟩, ⟨b, hb, hib⟩, -, -⟩ := ih.names id n1 n2 v ic coup hmem cd hcd
          have h1 := hf hv a ha hia.vde.1
          have h2 := hf hv b hb hib.vde.1
          rw [hia.vde.2] at h1; rw [hib.vde.2] at h2
          rw [hx]; exact ⟨h1, h2⟩
        constructor <;>
        · unfold pairSum
          apply sum_zero_of
          intro cd hcd
          obtain ⟨a, b⟩ := this cd hcd
          rw [if_neg]
          rintro (⟨p, q⟩ | ⟨p, q⟩)
          all_goals first
            | exact a p
            | exact b q
      rcases List.mem_append.mp hm with hm | hm <;> rcases List.mem_append.mp hm' with hm' | hm'
      · exact ih.symm id n1 n2 v ic coup id' n1' n2' v' ic' coup' hm hm' hne
      · simp only [List.mem_singleton] at hm'
        have h0 := hl _ _ _ _ _ _ hm'.symm
        rw [h0, (hz id n1 n2 v ic coup id' hm (by rw [← hm']; rfl) (by rw [← hm']; rfl)).1]
        simp [pairSum]
      · simp only [List.mem_singleton] at hm
        have h0 := hl _ _ _ _ _ _ hm.symm
        rw [h0, (hz id' n1' n2' v' ic' coup' id hm' (by rw [← hm]; rfl) (by rw [← hm]; rfl)).2]
        simp [pairSum]
      · simp only [List.mem_singleton] at hm hm'
        have := hm.trans hm'.symm
        simp only [Elem.L.injEq] at this
        exact absurd (congrArg upper this.1) hne
  | @couple c c' id L1 L2 k _ hc ih =>
    obtain ⟨q, hne, ⟨a1, ha1, hi1⟩, ⟨a2, ha2, hi2⟩, rfl⟩ := addCoupling_map ih.uniq hc
    set cd : Coupling α := ⟨id, L1, L2, k, q * k⟩ with hcd
    have hmemL : ∀ i n1 n2 v ic coup,
        Elem.L i n1 n2 v ic coup ∈ c.map (attachIf cd) ++ [.K cd] →
        ∃ c0, Elem.L i n1 n2 v ic c0 ∈ c ∧ coup = if i = L1 ∨ i = L2 then c0 ++ [cd] else c0 := by
      intro i n1 n2 v ic coup hm
      rcases List.mem_append.mp hm with hm | hm
      · obtain ⟨e, he, heq⟩ := List.mem_map.mp hm
        obtain ⟨c0, rfl, hcoup⟩ := attachIf_L heq
        exact ⟨c0, he, hcoup⟩
      · simp at hm
    have hind : ∀ name, (∃ e ∈ c, IsInd e name) →
        ∃ e ∈ c.map (attachIf cd) ++ [.K cd], IsInd e name := by
      rintro name ⟨e, he, hi⟩
      exact ⟨attachIf cd e, List.mem_append_left _ (List.mem_map_of_mem he), hi.attachIf cd⟩
    have hupper : upper L1 ≠ upper L2 := by
      intro heq
      obtain ⟨i1, h1⟩ := List.mem_iff_getElem?.mp ha1
      obtain ⟨i2, h2⟩ := List.mem_iff_getElem?.mp ha2
      have := unique_pos ih.uniq h1 h2 hi1.vde.1 hi2.vde.1 (by rw [hi1.vde.2, hi2.vde.2, heq])
      subst this
      rw [h1] at h2
      simp only [Option.some.injEq] at h2
      exact hne (by rw [← hi1.vde.2, h2, hi2.vde.2])
    have hname : ∀ i n1 n2 v ic c0 x, Elem.L i n1 n2 v ic c0 ∈ c → (∃ e ∈ c, IsInd e x) →
        upper i = upper x → i = x := by
      intro i n1 n2 v ic c0 x hm ⟨e, he, hi⟩ heq
      obtain ⟨p1, h1⟩ := List.mem_iff_getElem?.mp hm
      obtain ⟨p2, h2⟩ := List.mem_iff_getElem?.mp he
      have := unique_pos ih.uniq h1 h2 rfl hi.vde.1 (by rw [hi.vde.2]; exact heq)
      subst this
      rw [h1] at h2; simp only [Option.some.injEq] at h2
      rw [← hi.vde.2, ← h2]; rfl
    refine ⟨?_, ?_, ?_⟩
    · unfold UniqueVde; rw [vdes_map_attachIf]; exact ih.uniq
    · intro i n1 n2 v ic coup hm d hd
      obtain ⟨c0, hm0, rfl⟩ := hmemL i n1 n2 v ic coup hm
      have hold : d ∈ c0 → (∃ e ∈ c.map (attachIf cd) ++ [.K cd], IsInd e d.L1) ∧
          (∃ e ∈ c.map (attachIf cd) ++ [.K cd], IsInd e d.L2) ∧ upper d.L1 ≠ upper d.L2 ∧
          (d.L1 = i ∨ d.L2 = i) := by
        intro hd0
        obtain ⟨x, y, z, w⟩ := ih.names i n1 n2 v ic c0 hm0 d hd0
        exact ⟨hind _ x, hind _ y, z, w⟩
      split at hd
      · rename_i hcond
        rcases List.mem_append.mp hd with hd | hd
        · exact hold hd
        · simp only [List.mem_singleton] at hd; subst hd
          refine ⟨hind _ ⟨a1, ha1, hi1⟩, hind _ ⟨a2, ha2, hi2⟩, hupper, ?_⟩
          rcases hcond with h | h
          · exact .inl h.symm
          · exact .inr h.symm
      · exact hold hd
    · intro i n1 n2 v ic coup i' n1' n2' v' ic' coup' hm hm' hneq
      obtain ⟨c0, hm0, rfl⟩ := hmemL i n1 n2 v ic coup hm
      obtain ⟨c0', hm0', rfl⟩ := hmemL i' n1' n2' v' ic' coup' hm'
      have hs := ih.symm i n1 n2 v ic c0 i' n1' n2' v' ic' c0' hm0 hm0' hneq
      have e1 := hname i n1 n2 v ic c0 L1 hm0 ⟨a1, ha1, hi1⟩
      have e2 := hname i n1 n2 v ic c0 L2 hm0 ⟨a2, ha2, hi2⟩
      have e1' := hname i' n1' n2' v' ic' c0' L1 hm0' ⟨a1, ha1, hi1⟩
      have e2' := hname i' n1' n2' v' ic' c0' L2 hm0' ⟨a2, ha2, hi2⟩
      by_cases hp : (upper L1 = upper i ∧ upper L2 = upper i') ∨ (upper L1 = upper i' ∧ upper L2 = upper i)
      · have hi : i = L1 ∨ i = L2 := by
          rcases hp with ⟨a, b⟩ | ⟨a, b⟩
          · exact .inl (e1 a.symm)
          · exact .inr (e2 b.symm)
        have hi' : i' = L1 ∨ i' = L2 := by
          rcases hp with ⟨a, b⟩ | ⟨a, b⟩
          · exact .inr (e2' b.symm)
          · exact .inl (e1' a.symm)
        rw [if_pos hi, if_pos hi', pairSum_append, pairSum_append, hs]
      · have hz : ∀ l : List (Coupling α), ∀ p : Prop, [Decidable p] →
            pairSum (upper i) (upper i') (if p then l ++ [cd] else l) =
              pairSum (upper i) (upper i') l := by
          intro l p _
          split
          · rw [pairSum_append, if_neg hp, add_zero]
          · rfl
        rw [hz, hz, hs]

/-- C09: in every circuit built through the API, for every pair of inductors the mutual
term of the first inductor's equation with respect to the second one's current equals the
mutual term of the second inductor's equation with respect to the first one's current. -/
theorem C09_reciprocity {sqrt : α → Option α} {circ : List (Elem α)} {nv : Nat} {cmin : α} {D : Mat α}
    (hb : Built sqrt circ) (h0 : 0 < nv) (he : ∀ e ∈ circ, NodesLt nv e)
    (h : generateD circ nv (nv + (vdes circ).length) cmin = .ok D)
    {k k' : Nat} {e e' : Elem α} {name name' : String} (hk : (vdes circ)[k]? = some e)
    (hk' : (vdes circ)[k']? = some e') (hi : IsInd e name) (hi' : IsInd e' name') (hne : k ≠ k') :
    D (nv + k) (nv + k') = D (nv + k') (nv + k) := by
  have inv := hb.inv
  have hentry : ∀ (k k' : Nat) (id : String) n1 n2 v ic coup (e' : Elem α),
      (vdes circ)[k]? = some (.L id n1 n2 v ic coup) → (vdes circ)[k']? = some e' → k ≠ k' →
      D (nv + k) (nv + k') = -(pairSum (upper id) (upper e'.id) coup) := by
    intro k k' id n1 n2 v ic coup e' hk hk' hne
    have hlt : k' < (vdes circ).length := (List.getElem?_eq_some_iff.mp hk').1
    have := C08_branch_rows h0 he h (fun j => if j = nv + k' then 1 else 0) (by simp; omega) k _ hk
    rw [mulVec, Finset.sum_eq_single (nv + k')] at this
    · simp only [if_true, mul_one, flux] at this
      rw [if_neg (by omega), mul_zero, neg_zero, zero_sub] at this
      rw [this]
      congr 1
      unfold mutualTerm pairSum
      congr 1
      apply List.map_congr_left
      intro cd hcd
      have hm : Elem.L id n1 n2 v ic coup ∈ circ := (List.mem_filter.mp (List.mem_of_getElem? hk)).1
      obtain ⟨x1, x2, hneu, hor⟩ := inv.names id n1 n2 v ic coup hm cd hcd
      have hbr : ∀ o : String, (∃ e ∈ circ, IsInd e o) →
          (nv + branchOf circ o = nv + k' ↔ upper o = upper e'.id) := by
        rintro o ⟨a, ha, hia⟩
        obtain ⟨p, hp⟩ := List.mem_iff_getElem?.mp (List.mem_filter.mpr ⟨ha, hia.vde.1⟩ : a ∈ vdes circ)
        have hb1 := branchOf_eq inv.uniq hp
        rw [hia.vde.2] at hb1
        rw [hb1]
        have hb2 := branchOf_eq inv.uniq hk'
        constructor
        · intro hh
          have : p = k' := by omega
          subst this
          have hpe := hp.symm.trans hk'
          simp only [Option.some.injEq] at hpe
          rw [← hpe, hia.vde.2]
        · intro hh
          have : branchOf circ o = branchOf circ e'.id := by unfold branchOf; rw [hh]
          rw [hb1, hb2] at this; omega
      rcases hor with rfl | rfl
      · rw [if_pos rfl]
        simp only
        by_cases hup : upper cd.L2 = upper e'.id
        · rw [if_pos ((hbr _ x2).mpr hup), if_pos (.inl ⟨trivial, hup⟩), mul_one]
        · rw [if_neg (fun hh => hup ((hbr _ x2).mp hh)), mul_zero, if_neg]
          rintro (⟨-, hh⟩ | ⟨hh, hh2⟩)
          · exact hup hh
          · exact hneu hh2.symm
      · rw [if_neg (fun hh => hneu hh.symm)]
        simp only
        by_cases hup : upper cd.L1 = upper e'.id
        · rw [if_pos ((hbr _ x1).mpr hup), if_pos (.inr ⟨hup, trivial⟩), mul_one]
        · rw [if_neg (fun hh => hup ((hbr _ x1).mp hh)), mul_zero, if_neg]
          rintro (⟨hh, -⟩ | ⟨hh, -⟩)
          · exact hneu hh
          · exact hup hh
    · intro b _ hbne; simp [hbne]
    · intro hn; exact absurd (Finset.mem_range.mpr (by omega)) hn
  obtain ⟨n1, n2, v, ic, coup, rfl⟩ := hi
  obtain ⟨m1, m2, w, ic', coup', rfl⟩ := hi'
  rw [hentry k k' _ _ _ _ _ _ _ hk hk' hne, hentry k' k _ _ _ _ _ _ _ hk' hk hne.symm]
  congr 1
  have hm := (List.mem_filter.mp (List.mem_of_getElem? hk)).1
  have hm' := (List.mem_filter.mp (List.mem_of_getElem? hk')).1
  have hnu : upper name ≠ upper name' := by
    intro heq
    have a := branchOf_eq inv.uniq hk
    have b := branchOf_eq inv.uniq hk'
    simp only [Elem.id] at a b
    unfold branchOf at a b
    rw [heq] at a
    exact hne (a.symm.trans b)
  have := inv.symm _ _ _ _ _ _ _ _ _ _ _ _ hm hm' hnu
  simp only [Elem.id]
  rw [this]
  unfold pairSum
  congr 1
  apply List.map_congr_left
  intro cd _
  simp only [or_comm]

/-- perfect squares only -/
def sqrtDemo (a : ℚ) : Option ℚ := if a = 36 then some 6 else none

/-- non-vacuity: a circuit built through the API with one coupling -/
example : ∃ c, Built sqrtDemo c ∧ (∀ e ∈ c, NodesLt 3 e) ∧
    (vdes c).length = 2 ∧ ((generateD c 3 5 0).toOption.map (fun D => D 3 4)) = some (-3) := by
  have h0 : Built sqrtDemo ([] : List (Elem ℚ)) := .nil
  have h1 : Built sqrtDemo ([] ++ [Elem.L "L1" 1 0 4 none []]) :=
    .add h0 (by simp) (by intro _ _ _ _ _ _ h; simp only [Elem.L.injEq] at h; exact h.2.2.2.2.2.symm)
      (by simp)
  have h2 : Built sqrtDemo (([] ++ [Elem.L "L1" 1 0 4 none []]) ++ [Elem.L "L2" 2 0 9 none []]) :=
    .add h1 (by simp) (by intro _ _ _ _ _ _ h; simp only [Elem.L.injEq] at h; exact h.2.2.2.2.2.symm)
      (by intro _ e he _; simp at he; subst he; decide)
  have h3 := Built.couple (id := "K1") (L1 := "L1") (L2 := "L2") (k := 1/2)
    (c' := [.L "L1" 1 0 4 none [⟨"K1", "L1", "L2", 1/2, 3⟩],
      .L "L2" 2 0 9 none [⟨"K1", "L1", "L2", 1/2, 3⟩], .K ⟨"K1", "L1", "L2", 1/2, 3⟩]) h2
    (by
      have hs : sqrtDemo (4 * 9) = some 6 := by unfold sqrtDemo; norm_num
      have hm : (6 : ℚ) * 2⁻¹ = 3 := by norm_num
      simp [addCoupling, findPair, indValue, hs, attach, List.modify, List.modifyTailIdx,
        List.modifyTailIdx.go, hm])
  exact ⟨_, h3, by simp [NodesLt], by decide +kernel, by decide +kernel⟩

end Verif.Dyn
