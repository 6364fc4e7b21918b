import Verif.Props.Rest

/-!
C191: how far a reported operating point can be from the exact one.
-/

namespace Verif.Accuracy
open Verif.Circuit Verif.Mna Verif.Dyn Verif.Rlc Verif.Recip Verif.Bound Verif.Devices

section Field
variable {K : Type} [Field K] [LinearOrder K] [IsStrictOrderedRing K]

def groundTerm (r : Nat) : Elem K → K
  | .R _ n1 n2 v => if n1 = r ∧ n2 = 0 ∨ n1 = 0 ∧ n2 = r then 1 / v else 0
  | _ => 0

/-- the conductance of the resistors between the node `r` and the ground -/
def toGround (circ : List (Elem K)) (r : Nat) : K := (circ.map (groundTerm r)).sum

/-- a voltage source or an inductor ends at the node `r` -/
def Held (circ : List (Elem K)) (r : Nat) : Prop :=
  ∃ e ∈ circ, e.vde = true ∧ ((term e).1 = r ∨ (term e).2 = r)

/-- voltage sources and inductors have one end at the ground -/
def Grounded (circ : List (Elem K)) : Prop :=
  ∀ e ∈ circ, e.vde = true → (term e).1 = 0 ∨ (term e).2 = 0

theorem kcl_ge {circ : List (Elem K)} {nv : Nat} {x : Vec K} {r : Nat} (h0 : x 0 = 0) (hr : r ≠ 0)
    (hmax : ∀ n < nv, x n ≤ x r) (l : List (Elem K)) (k : Nat) (he : ∀ e ∈ l, NodesLt nv e)
    (hp : ∀ e ∈ l, TwoPole e) (hpos : ∀ e ∈ l, Positive e)
    (hv : ∀ e ∈ l, e.vde = true → (term e).1 ≠ r ∧ (term e).2 ≠ r) :
    toGround l r * x r ≤ kcl circ nv x (fun _ => 0) l k r := by
  induction l generalizing k with
  | nil => simp [toGround, kcl]
  | cons e t ih =>
    have i1 := ih (k + if e.vde then 1 else 0) (fun e' h' => he e' (List.mem_cons_of_mem _ h'))
      (fun e' h' => hp e' (List.mem_cons_of_mem _ h')) (fun e' h' => hpos e' (List.mem_cons_of_mem _ h'))
      (fun e' h' => hv e' (List.mem_cons_of_mem _ h'))
    have t1 := he e (List.mem_cons_self ..)
    have t2 := hp e (List.mem_cons_self ..)
    have t3 := hpos e (List.mem_cons_self ..)
    have t4 := hv e (List.mem_cons_self ..)
    rw [kcl]
    have key : groundTerm r e * x r ≤ inj (term e).1 (term e).2 (current circ nv x (fun _ => 0) k e) r := by
      cases e <;> simp only [TwoPole] at t2
      · rename_i id n1 n2 v
        simp only [NodesLt, Positive] at t1 t3
        change (if n1 = r ∧ n2 = 0 ∨ n1 = 0 ∧ n2 = r then 1 / v else 0) * x r ≤ inj n1 n2 ((x n1 - x n2) / v) r
        unfold inj
        have d1 : 0 ≤ (x r - x n2) / v := div_nonneg (sub_nonneg.2 (hmax _ t1.2)) t3.le
        have d2 : 0 ≤ (x r - x n1) / v := div_nonneg (sub_nonneg.2 (hmax _ t1.1)) t3.le
        by_cases h1 : r = n1
        · by_cases h2 : r = n2
          · subst h1; subst h2
            simp [hr]
          · subst h1
            rw [if_pos rfl, if_neg h2, sub_zero]
            by_cases h3 : n2 = 0
            · subst h3
              rw [if_pos (.inl ⟨rfl, rfl⟩), h0, sub_zero, one_div_mul_eq_div]
            · rw [if_neg (by rintro (⟨-, h⟩ | ⟨-, h⟩) <;> omega), zero_mul]
              exact d1
        · by_cases h2 : r = n2
          · subst h2
            rw [if_neg h1, if_pos rfl, zero_sub, ← neg_div, neg_sub]
            by_cases h3 : n1 = 0
            · subst h3
              rw [if_pos (.inr ⟨rfl, rfl⟩), h0, sub_zero, one_div_mul_eq_div]
            · rw [if_neg (by rintro (⟨h, -⟩ | ⟨h, -⟩) <;> omega), zero_mul]
              exact d2
          · rw [if_neg (by rintro (⟨h, -⟩ | ⟨-, h⟩) <;> omega), if_neg h1, if_neg h2, zero_mul, sub_zero]
      · simp [groundTerm, current, inj]
      · have := t4 rfl
        simp only [groundTerm, inj, if_neg this.1.symm, if_neg this.2.symm, zero_mul, sub_zero, le_refl]
      · simp [groundTerm, current, inj]
      · have := t4 rfl
        simp only [groundTerm, inj, if_neg this.1.symm, if_neg this.2.symm, zero_mul, sub_zero, le_refl]
      · simp [groundTerm, current, inj]
    have : toGround (e :: t) r = groundTerm r e + toGround t r := by simp [toGround]
    rw [this, add_mul]
    exact add_le_add key i1

omit [LinearOrder K] [IsStrictOrderedRing K] in
theorem toGround_lin (circ : List (Elem K)) (r : Nat) : toGround (lin circ) r = toGround circ r := by
  induction circ with
  | nil => rfl
  | cons e t ih =>
    have c : ∀ l : List (Elem K), toGround (e :: l) r = groundTerm r e + toGround l r := fun l => by simp [toGround]
    rw [lin_cons, c t]
    cases e <;> simp [Elem.nonlinear, c, ih, groundTerm]

/-- the allowances: `a` at the nodes, `b` in the equations of voltage sources and inductors -/
def Within {m : Nat} (nv : Nat) (a b : K) (F : Fin m → K) : Prop :=
  ∀ i : Fin m, |F i| ≤ if i.val + 1 < nv then a else b

/-- `c` volts are more than the allowances can do -/
def Enough (nv : Nat) (circ : List (Elem K)) (g a b c : K) : Prop :=
  0 ≤ c ∧ b ≤ c ∧ ∀ r, 0 < r → r < nv → ¬ Held circ r →
    0 < toGround circ r + g ∧ a ≤ (toGround circ r + g) * c

omit [LinearOrder K] [IsStrictOrderedRing K] in
theorem row {m nv : Nat} (hnv : 0 < nv) (M : Mat K) (g : K) (z : Fin m → K) (i : Fin m) :
    (reduce m M + Op.gminMat (nv - 1) g).mulVec z i = mulVec (m + 1) M (Rlc.ext z) (i.val + 1) +
      if i.val + 1 < nv then g * Rlc.ext z (i.val + 1) else 0 := by
  have ex : Rlc.ext z (i.val + 1) = z i := by simp [Rlc.ext, i.isLt]
  rw [Matrix.add_mulVec, Pi.add_apply, reduce_row, Op.gminMat, Matrix.mulVec_diagonal, ex]
  by_cases hc : i.val < nv - 1
  · rw [if_pos hc, if_pos (by omega)]
  · rw [if_neg hc, if_neg (by omega), zero_mul]

/-- the highest voltage that currents within the allowances can cause -/
theorem above {m nv : Nat} {circ : List (Elem K)} {s : Sys K} {g a b c : K} {J : String → Nat → Nat → K}
    (hnv : 0 < nv) (he : ∀ e ∈ circ, NodesLt nv e) (hp : ∀ e ∈ circ, Part e) (hpos : ∀ e ∈ circ, Positive e)
    (hgr : Grounded circ) (h : generate circ nv = .ok s) (hm : s.size = m + 1) (hc : Enough nv circ g a b c)
    {z F : Fin m → K}
    (hJ : ∀ id n1 n2 p q o, Elem.NL id n1 n2 p q o ∈ circ →
      (Rlc.ext z n2 ≤ Rlc.ext z n1 → 0 ≤ J id n1 n2) ∧ (Rlc.ext z n1 ≤ Rlc.ext z n2 → J id n1 n2 ≤ 0))
    (hz : ∀ i : Fin m, (reduce m s.M + Op.gminMat (nv - 1) g).mulVec z i +
      devSum (fun id n1 n2 => inj n1 n2 (J id n1 n2) (i.val + 1)) circ = F i)
    (hF : Within nv a b F) : ∀ r < nv, Rlc.ext z r ≤ c := by
  obtain ⟨hc0, hb, hr⟩ := hc
  rw [generate_lin hp] at h
  have hin' : ∀ e, e ∈ lin circ → e ∈ circ := fun e hm => (List.mem_filter.1 hm).1
  have hle : ∀ e ∈ lin circ, NodesLt nv e := fun e hm => he e (hin' e hm)
  have hlp := lin_two hp
  obtain ⟨hS, hn, hbr⟩ := rows_linear hle hlp h (Rlc.ext z)
  have z0 : Rlc.ext z 0 = 0 := rfl
  obtain ⟨r, hrm, hmax⟩ := Finset.exists_max_image (Finset.range nv) (Rlc.ext z) ⟨0, Finset.mem_range.2 hnv⟩
  have hrm := Finset.mem_range.1 hrm
  have hmax : ∀ n < nv, Rlc.ext z n ≤ Rlc.ext z r := fun n hn => hmax n (Finset.mem_range.2 hn)
  suffices Rlc.ext z r ≤ c from fun n hn => (hmax n hn).trans this
  by_contra hlt
  rw [not_le] at hlt
  have hr0 : r ≠ 0 := fun h => by rw [h, z0] at hlt; exact absurd hc0 (not_le.2 hlt)
  have cb : ∀ j, devSum (fun id n1 n2 => inj n1 n2 (J id n1 n2) (nv + j)) circ = 0 := fun j => by
    rw [devSum_congr (g := fun _ _ _ => 0) circ fun id n1 n2 a b c hin => ?_, devSum_none]
    have := he _ hin
    simp only [NodesLt] at this
    rw [inj, if_neg (by omega), if_neg (by omega), sub_zero]
  have free : ¬ Held circ r := by
    rintro ⟨e, hin, hv, ht⟩
    have hnl : e.nonlinear = false := by cases e <;> simp_all [Elem.vde, Elem.nonlinear]
    have hinl : e ∈ vdes (lin circ) := List.mem_filter.2 ⟨List.mem_filter.2 ⟨hin, by simp [hnl]⟩, hv⟩
    obtain ⟨j, hj⟩ := List.getElem?_of_mem hinl
    have hlt' := (List.getElem?_eq_some_iff.mp hj).1
    have hi : nv + j - 1 < m := by omega
    have h1 := hz ⟨nv + j - 1, hi⟩
    have h2 := hF ⟨nv + j - 1, hi⟩
    rw [row hnv] at h1
    simp only [show nv + j - 1 + 1 = nv + j by omega, show ¬ nv + j < nv by omega, if_false, add_zero] at h1 h2
    rw [← hm, (hbr j e hj).1, cb, add_zero] at h1
    rw [← h1] at h2
    have h3 := hgr e hin hv
    have h4 := (abs_le.1 h2)
    have h5 := hlp e (List.mem_filter.2 ⟨hin, by simp [hnl]⟩)
    cases e <;> simp only [TwoPole] at h5 <;> simp only [Elem.vde, Bool.false_eq_true] at hv <;>
      simp only [term] at ht h3 <;> simp only [Mna.law, sub_zero] at h4 <;>
      rcases ht with rfl | rfl <;> rcases h3 with h3 | h3 <;> first
        | exact absurd h3 hr0
        | (rw [h3, z0] at h4
           linarith [h4.1, h4.2])
  obtain ⟨g1, g2⟩ := hr r (Nat.pos_of_ne_zero hr0) hrm free
  have hi : r - 1 < m := by omega
  have h1 := hz ⟨r - 1, hi⟩
  have h2 := hF ⟨r - 1, hi⟩
  rw [row hnv] at h1
  simp only [show r - 1 + 1 = r by omega, hrm, if_true] at h1 h2
  rw [← hm, (hn r hrm).1] at h1
  have k1 := kcl_ge (circ := lin circ) z0 hr0 hmax (lin circ) 0 hle hlp (fun e hm => hpos e (hin' e hm)) fun e hm hv =>
    ⟨fun h' => free ⟨e, hin' e hm, hv, .inl h'⟩, fun h' => free ⟨e, hin' e hm, hv, .inr h'⟩⟩
  rw [toGround_lin] at k1
  have k2 : 0 ≤ devSum (fun id n1 n2 => inj n1 n2 (J id n1 n2) r) circ := by
    refine devSum_nonneg circ fun id n1 n2 p q o hin => ?_
    have h3 := hJ id n1 n2 p q o hin
    have h4 := he _ hin
    simp only [NodesLt] at h4
    unfold inj
    by_cases e1 : r = n1
    · by_cases e2 : r = n2
      · rw [if_pos e1, if_pos e2, sub_self]
      · rw [if_pos e1, if_neg e2, sub_zero]
        exact h3.1 (e1 ▸ hmax _ h4.2)
    · by_cases e2 : r = n2
      · rw [if_neg e1, if_pos e2, zero_sub]
        exact neg_nonneg.2 (h3.2 (e2 ▸ hmax _ h4.1))
      · rw [if_neg e1, if_neg e2, sub_zero]
  have k3 : (toGround circ r + g) * c < (toGround circ r + g) * Rlc.ext z r := mul_lt_mul_of_pos_left hlt g1
  have k4 := (abs_le.1 h2).2
  nlinarith

/-- and the lowest -/
theorem within {m nv : Nat} {circ : List (Elem K)} {s : Sys K} {g a b c : K} {J : String → Nat → Nat → K}
    (hnv : 0 < nv) (he : ∀ e ∈ circ, NodesLt nv e) (hp : ∀ e ∈ circ, Part e) (hpos : ∀ e ∈ circ, Positive e)
    (hgr : Grounded circ) (h : generate circ nv = .ok s) (hm : s.size = m + 1) (hc : Enough nv circ g a b c)
    {z F : Fin m → K}
    (hJ : ∀ id n1 n2 p q o, Elem.NL id n1 n2 p q o ∈ circ →
      (Rlc.ext z n2 ≤ Rlc.ext z n1 → 0 ≤ J id n1 n2) ∧ (Rlc.ext z n1 ≤ Rlc.ext z n2 → J id n1 n2 ≤ 0))
    (hz : ∀ i : Fin m, (reduce m s.M + Op.gminMat (nv - 1) g).mulVec z i +
      devSum (fun id n1 n2 => inj n1 n2 (J id n1 n2) (i.val + 1)) circ = F i)
    (hF : Within nv a b F) : ∀ r < nv, |Rlc.ext z r| ≤ c := by
  intro r hr
  have en : ∀ n, Rlc.ext (-z) n = -Rlc.ext z n := fun n => by
    cases n with
    | zero => simp [Rlc.ext]
    | succ n => by_cases h : n < m <;> simp [Rlc.ext, h]
  rw [abs_le]
  refine ⟨?_, above hnv he hp hpos hgr h hm hc hJ hz hF r hr⟩
  have := above (J := fun id n1 n2 => -J id n1 n2) (z := -z) (F := -F) hnv he hp hpos hgr h hm hc
    (fun id n1 n2 p q o hin => ?_) (fun i => ?_) (fun i => ?_) r hr
  · rw [en] at this
    linarith
  · have := hJ id n1 n2 p q o hin
    simp only [en, neg_le_neg_iff]
    exact ⟨fun h => neg_nonneg.2 (this.2 h), fun h => neg_nonpos.2 (this.1 h)⟩
  · have e1 : devSum (fun id n1 n2 => inj n1 n2 (-J id n1 n2) (i.val + 1)) circ =
        -1 * devSum (fun id n1 n2 => inj n1 n2 (J id n1 n2) (i.val + 1)) circ := by
      rw [mul_devSum]
      refine devSum_congr circ fun id n1 n2 p q o _ => ?_
      unfold inj
      split_ifs <;> ring
    rw [e1, Matrix.mulVec_neg, Pi.neg_apply, Pi.neg_apply, ← hz i]
    ring
  · rw [Pi.neg_apply, abs_neg]
    exact hF i



/-- a step is never longer than Newton's -/
theorem td_range {m : Nat} {o : Newton.Opts K} (hl : 0 ≤ o.lim) (dx : Fin m → K) (locked : List (Nat × Nat)) (n : Int) :
    0 ≤ Newton.getTd o dx locked n ∧ Newton.getTd o dx locked n ≤ 1 := by
  have h1 : 0 ≤ Newton.tdFirst o n ∧ Newton.tdFirst o n ≤ 1 := by
    unfold Newton.tdFirst
    split_ifs <;> norm_num
  have fold : ∀ (l : List (Nat × Nat)) (st : K × K), 0 ≤ st.1 → st.1 ≤ 1 → 0 ≤ st.2 →
      0 ≤ (l.foldl (Newton.tdStep o.lim dx) st).1 ∧ (l.foldl (Newton.tdStep o.lim dx) st).1 ≤ 1 := by
    intro l
    induction l with
    | nil => exact fun st a b _ => ⟨a, b⟩
    | cons p t ih =>
      intro st a b c
      rw [List.foldl_cons]
      have h2 : 0 ≤ (Newton.tdStep o.lim dx st p).2 := by
        unfold Newton.tdStep
        simp only
        split_ifs <;> first | exact c | exact div_nonneg hl (abs_nonneg _)
      have h3 : (Newton.tdStep o.lim dx st p).1 = (Newton.tdStep o.lim dx st p).2 ∧
          (Newton.tdStep o.lim dx st p).2 < st.1 ∨ (Newton.tdStep o.lim dx st p).1 = st.1 := by
        unfold Newton.tdStep
        simp only
        generalize (if p.1 ≠ 0 then _ else _ : K) = w
        by_cases hw : w < st.1
        · exact .inl ⟨if_pos hw, hw⟩
        · exact .inr (if_neg hw)
      rcases h3 with ⟨h3, h4⟩ | h3
      · exact ih _ (h3 ▸ h2) (by rw [h3]; linarith) h2
      · exact ih _ (h3 ▸ a) (h3 ▸ b) h2
  unfold Newton.getTd
  split_ifs
  · exact fold _ _ h1.1 h1.2 zero_le_one
  · exact h1

/-- C191: a converged Newton iteration ends near the operating point. In a circuit of positive resistors, capacitors,
current sources, grounded voltage sources and inductors, and devices whose currents grow with their voltages, let `c`
be a voltage that is at least the tolerance `vea` and drives at least the current `iea` through the conductance
between each node and the ground. Then the point the last step starts from is within `c` of every operating point,
the step is no longer than `c` and the result is within `2 c`, at all nodes. -/
theorem C191_newton {m nv : Nat} {circ : List (Elem K)} {s : Sys K} {g gmin c : K} {law : String → Law K}
    (hnv : 0 < nv) (hgm : 0 < gmin) (he : ∀ e ∈ circ, NodesLt nv e) (hp : ∀ e ∈ circ, Devices.Part e)
    (hpos : ∀ e ∈ circ, Positive e) (ha : ∀ e ∈ circ, Apart e) (hgr : Grounded circ) (hl : Grow law circ)
    (hl' : Conduct law circ) (hn : Newton.isNonlinear circ = true) (h : generate circ nv = .ok s) (hm : s.size = m + 1)
    (o : Op.OOpts K) (hlim : 0 ≤ o.newton.lim) (hc : Enough nv circ g o.tol.iea o.tol.vea c)
    {x y : Fin m → K} (hx : Op.FromNewton o (Op.problem (Devices.opCirc m nv gmin law circ s) g .full) x)
    (hy : IsPoint nv g law circ s y) :
    ∃ x' dx : Fin m → K, ∃ td : K, x = x' + td • dx ∧ 0 ≤ td ∧ td ≤ 1 ∧
      ∀ r < nv, |Rlc.ext x' r - Rlc.ext y r| ≤ c ∧ |Rlc.ext dx r| ≤ c ∧ |Rlc.ext x r - Rlc.ext y r| ≤ 2 * c := by
  obtain ⟨x0, r, h1, h2, h3⟩ := hx
  have hn' : (Op.problem (Devices.opCirc m nv gmin law circ s) g .full).nonlinear = true := hn
  obtain ⟨-, -, -, x', e1, e2, e3⟩ := Newton.C78_report_exact _ _ _ _ _ _ h1
  rw [hn', if_pos rfl] at e1 e2
  have tol := Newton.C78_converged_within_tolerance _ _ _ hn' _ _ _ h1 h2
  have hF : Within nv o.tol.iea o.tol.vea r.res := fun i => by
    have := tol i
    have e : (Op.problem (Devices.opCirc m nv gmin law circ s) g .full).nv - 1 = nv - 1 := by
      simp [Op.problem, Devices.opCirc]
    rw [e] at this
    by_cases hi : i.val < nv - 1
    · rw [if_pos hi] at this
      rw [if_pos (by omega)]
      exact this.2
    · rw [if_neg hi] at this
      rw [if_neg (by omega)]
      exact this.2
  have hsz : s.size = nv + (vdes (lin circ)).length := by
    rw [generate_lin hp] at h
    exact (rows_linear (fun e hm => he e (List.mem_filter.1 hm).1) (lin_two hp) h (fun _ => 0)).1
  -- the point before the last step
  have p1 : ∀ r < nv, |Rlc.ext (x' - y) r| ≤ c := by
    refine within (J := fun id n1 n2 => (law id).i (Rlc.ext x' n1 - Rlc.ext x' n2) - (law id).i (Rlc.ext y n1 - Rlc.ext y n2))
      hnv he hp hpos hgr h hm hc (fun id n1 n2 p q w hin => ?_) (fun i => ?_) hF
    · simp only [ext_sub]
      have mono := hl id n1 n2 p q w hin
      exact ⟨fun hh => sub_nonneg.2 (mono (by linarith)), fun hh => sub_nonpos.2 (mono (by linarith))⟩
    · have a1 := congrFun e1 i
      have a2 := hy i
      simp only [Op.problem, Devices.opCirc, Pi.add_apply, add_zero] at a1
      rw [vecT_eq law ha, currents] at a1 a2
      have h4 : devSum (fun id n1 n2 => inj n1 n2 ((law id).i (Rlc.ext x' n1 - Rlc.ext x' n2) -
            (law id).i (Rlc.ext y n1 - Rlc.ext y n2)) (i.val + 1)) circ =
          devSum (fun id n1 n2 => inj n1 n2 ((law id).i (Rlc.ext x' n1 - Rlc.ext x' n2)) (i.val + 1)) circ -
          devSum (fun id n1 n2 => inj n1 n2 ((law id).i (Rlc.ext y n1 - Rlc.ext y n2)) (i.val + 1)) circ := by
        rw [devSum_sub]
        refine devSum_congr circ fun id n1 n2 p q w _ => ?_
        unfold inj
        split_ifs <;> ring
      rw [h4, Matrix.mulVec_sub, Pi.sub_apply]
      change r.res i = (reduce m s.M + Op.gminMat (nv - 1) g).mulVec x' i + s.N (i.val + 1) + _ at a1
      rw [a1]
      linear_combination -a2
  -- the step
  have p2 : ∀ n < nv, |Rlc.ext r.dx n| ≤ c := by
    refine within (F := -r.res) (J := fun id n1 n2 => used gmin ((law id).gm (Rlc.ext x' n1 - Rlc.ext x' n2)) *
      (Rlc.ext r.dx n1 - Rlc.ext r.dx n2)) hnv he hp hpos hgr h hm hc (fun id n1 n2 p q w hin => ?_) (fun i => ?_)
      fun i => by rw [Pi.neg_apply, abs_neg]; exact hF i
    · have := (used_pos hgm (hl' id n1 n2 p q w hin (Rlc.ext x' n1 - Rlc.ext x' n2))).le
      exact ⟨fun hh => mul_nonneg this (sub_nonneg.2 hh), fun hh => mul_nonpos_of_nonneg_of_nonpos this (sub_nonpos.2 hh)⟩
    · have a1 := congrFun e2 i
      rw [← a1, ← matJ_eq gmin law ha he (by omega), ← Pi.add_apply, ← Matrix.add_mulVec]
      rfl
  obtain ⟨t0, t1⟩ := td_range hlim r.dx (Op.problem (Devices.opCirc m nv gmin law circ s) g .full).locked (r.iteration : Int)
  set td := Newton.getTd o.newton r.dx (Op.problem (Devices.opCirc m nv gmin law circ s) g .full).locked (r.iteration : Int)
  refine ⟨x', r.dx, td, by rw [← h3, e3], t0, t1, fun n hn => ?_⟩
  have q1 := p1 n hn
  have q2 := p2 n hn
  rw [ext_sub] at q1
  refine ⟨q1, q2, ?_⟩
  have ex : Rlc.ext x n = Rlc.ext x' n + td * Rlc.ext r.dx n := by
    rw [← h3, e3]
    cases n with
    | zero => simp [Rlc.ext]
    | succ n => by_cases h : n < m <;> simp [Rlc.ext, h, td]
  rw [ex, show Rlc.ext x' n + td * Rlc.ext r.dx n - Rlc.ext y n =
    (Rlc.ext x' n - Rlc.ext y n) + td * Rlc.ext r.dx n by ring]
  refine (abs_add_le _ _).trans ?_
  rw [abs_mul, abs_of_nonneg t0]
  nlinarith [abs_nonneg (Rlc.ext r.dx n)]

/-- C191: the same of the operating point that is reported, with Gmin and source stepping switched off. -/
theorem C191_reported {m nv : Nat} {circ : List (Elem K)} {s : Sys K} {gmin c : K} {law : String → Law K}
    (hnv : 0 < nv) (hgm : 0 < gmin) (he : ∀ e ∈ circ, NodesLt nv e) (hp : ∀ e ∈ circ, Devices.Part e)
    (hpos : ∀ e ∈ circ, Positive e) (ha : ∀ e ∈ circ, Apart e) (hgr : Grounded circ) (hl : Grow law circ)
    (hl' : Conduct law circ) (hn : Newton.isNonlinear circ = true) (h : generate circ nv = .ok s) (hm : s.size = m + 1)
    (o : Op.OOpts K) (ho : o.meth.gmin = false ∧ o.meth.src = false) (hlim : 0 ≤ o.newton.lim)
    (x0 : Option (Fin m → K)) {r : Op.OpSol K m}
    (hr : Op.opAnalysis o (Devices.opCirc m nv gmin law circ s) gmin x0 = some (some r))
    (hc : Enough nv circ r.gmin o.tol.iea o.tol.vea c) {y : Fin m → K} (hy : IsPoint nv r.gmin law circ s y) :
    ∀ i : Fin m, i.val + 1 < nv → |r.x i - y i| ≤ 2 * c := by
  obtain ⟨-, hf⟩ := Op.C119_reported_partial o ho.1 ho.2 _ gmin x0 r hr
  obtain ⟨_, _, _, _, _, _, hb⟩ := C191_newton hnv hgm he hp hpos ha hgr hl hl' hn h hm o hlim hc hf hy
  intro i hi
  have := (hb (i.val + 1) hi).2.2
  simpa [Rlc.ext, i.isLt] using this

end Field

/-- C191: diodes without breakdown meet these conditions: for each node not held by a voltage source, `iea` divided by the conductance to
the ground bounds the error. -/
theorem C191_diodes {m nv : Nat} {circ : List (Elem ℝ)} {s : Sys ℝ} {gmin c : ℝ} {law : String → Law ℝ}
    (hnv : 0 < nv) (hgm : 0 < gmin) (he : ∀ e ∈ circ, NodesLt nv e) (hp : ∀ e ∈ circ, Devices.Part e)
    (hpos : ∀ e ∈ circ, Positive e) (ha : ∀ e ∈ circ, Apart e) (hgr : Grounded circ)
    (hl : ∀ id n1 n2 a b c, Elem.NL id n1 n2 a b c ∈ circ → ∃ dm area, IsDiode gmin (law id) dm area ∧ dm.BV = none)
    (hn : Newton.isNonlinear circ = true) (h : generate circ nv = .ok s) (hm : s.size = m + 1)
    (o : Op.OOpts ℝ) (ho : o.meth.gmin = false ∧ o.meth.src = false) (hlim : 0 ≤ o.newton.lim)
    (x0 : Option (Fin m → ℝ)) {r : Op.OpSol ℝ m}
    (hr : Op.opAnalysis o (Devices.opCirc m nv gmin law circ s) gmin x0 = some (some r))
    (hc0 : 0 ≤ c) (hb : o.tol.vea ≤ c) (hc : ∀ r, 0 < r → r < nv → ¬ Held circ r →
      0 < toGround circ r ∧ o.tol.iea ≤ toGround circ r * c)
    {y : Fin m → ℝ} (hy : IsPoint nv r.gmin law circ s y) :
    ∀ i : Fin m, i.val + 1 < nv → |r.x i - y i| ≤ 2 * c := by
  have g0 : 0 ≤ r.gmin := by
    rcases (Op.C119_reported_partial o ho.1 ho.2 _ gmin x0 r hr).1 with h' | h' <;> rw [h']
    exact hgm.le
  refine C191_reported hnv hgm he hp hpos ha hgr (fun id n1 n2 a b c hin => ?_) (fun id n1 n2 a b c hin v => ?_)
    hn h hm o ho hlim x0 hr ⟨hc0, hb, fun n h1 h2 h3 => ?_⟩ hy
  · obtain ⟨dm, area, hd, hbv⟩ := hl id n1 n2 a b c hin
    exact hd.strictMono.monotone
  · obtain ⟨dm, area, hd, hbv⟩ := hl id n1 n2 a b c hin
    exact (hd.gm_pos hgm hbv v).le
  · obtain ⟨h4, h5⟩ := hc n h1 h2 h3
    exact ⟨by linarith, h5.trans (by nlinarith)⟩

/-! ### Examples -/

open Verif.Rest

/-- a device across a resistor, fed with 3 V through another one -/
def lit : List (Elem ℚ) :=
  [.V "V1" 1 0 ⟨some 3, none, false, none⟩, .R "R1" 1 2 1, .R "R2" 2 0 1, .NL "B1" 2 0 none [(2, 0)] [(2, 0)]]

def opts : Op.OOpts ℚ := { meth := ⟨true, false, false, 27⟩, newton := { lim := 1 / 10 }, tol := ⟨1 / 10 ^ 6, 1 / 10 ^ 3, 1 / 10 ^ 9, 1 / 10 ^ 3⟩, maxit := 100 }

theorem lit_sound : (∀ e ∈ lit, NodesLt 3 e) ∧ (∀ e ∈ lit, Devices.Part e) ∧ (∀ e ∈ lit, Positive e) ∧
    (∀ e ∈ lit, Apart e) ∧ Grounded lit := by
  simp [lit, NodesLt, Devices.Part, TwoPole, Elem.nonlinear, Positive, Apart, Grounded, Elem.vde, term]

theorem lit_point : IsPoint 3 0 cube lit (sysOf lit 3) ![3, 1, -2] := by
  unfold IsPoint
  decide +kernel

theorem lit_enough : Enough 3 lit 0 (1 / 10 ^ 9) (1 / 10 ^ 6) (1 / 10 ^ 6 : ℚ) := by
  refine ⟨by norm_num, le_rfl, fun r h0 h1 hf => ?_⟩
  obtain rfl | rfl : r = 1 ∨ r = 2 := by omega
  · exact absurd ⟨_, List.mem_cons_self .., rfl, .inl rfl⟩ hf
  · simp [toGround, lit, groundTerm]
    norm_num

theorem cube_grow (circ : List (Elem ℚ)) : Grow cube circ ∧ Conduct cube circ :=
  ⟨fun id n1 n2 a b c _ => (Odd.strictMono_pow ⟨1, rfl⟩ : StrictMono fun v : ℚ => v ^ 3).monotone,
    fun id n1 n2 a b c _ v => mul_nonneg (by norm_num) (sq_nonneg v)⟩

example : ∃ x : Fin 3 → ℚ, Op.FromNewton opts (Op.problem (Devices.opCirc 3 3 (1 / 10 ^ 12) cube lit (sysOf lit 3)) 0 .full) x ∧
    |x 1 - 1| ≤ 2 / 10 ^ 6 := by
  have hd : (Newton.jac (Op.problem (Devices.opCirc 3 3 (1 / 10 ^ 12) cube lit (sysOf lit 3)) 0 .full) ![3, 1, -2]).det ≠ 0 := by
    rw [Matrix.det_fin_three]
    decide +kernel
  obtain ⟨r, h1, h2, h3, -⟩ := Newton.C78_stays_at_solution opts.newton opts.tol _ (by decide +kernel) 100 (by norm_num)
    ![3, 1, -2] (show Newton.residual (Op.problem (Devices.opCirc 3 3 (1 / 10 ^ 12) cube lit (sysOf lit 3)) 0 .full) _ = 0 by
      decide +kernel) hd
  have hf : Op.FromNewton opts _ r.x := ⟨_, r, h1, h3, rfl⟩
  refine ⟨r.x, hf, ?_⟩
  obtain ⟨k1, k2, k3, k4, k5⟩ := lit_sound
  obtain ⟨_, _, _, _, _, _, hb⟩ := C191_newton (by norm_num) (by norm_num) k1 k2 k3 k4 k5 (cube_grow _).1 (cube_grow _).2
    rfl rfl rfl opts (by norm_num [opts]) lit_enough hf lit_point
  have := (hb 2 (by norm_num)).2.2
  refine le_trans (le_of_eq ?_) (this.trans (by norm_num))
  simp [Rlc.ext]

/-- a device of 1 Ohm across a resistor of 1 Ohm, fed with 4 A -/
def lamp : List (Elem ℚ) :=
  [.I "I1" 1 0 ⟨some (-4), none, false, none⟩, .R "R1" 1 0 1, .NL "B1" 1 0 none [(1, 0)] []]

def ohm : String → Law ℚ := fun _ => ⟨fun v => v, fun _ => 1⟩

theorem lamp_solved (g : ℚ) (hg : 0 ≤ g) (x0 : Option (Fin 1 → ℚ)) :
    ∃ z, Op.dcSolve opts (Devices.opCirc 1 2 (1 / 10 ^ 12) ohm lamp (sysOf lamp 2)) g x0 = .solved z := by
  set c := Devices.opCirc 1 2 (1 / 10 ^ 12) ohm lamp (sysOf lamp 2) with hc
  have hT : ∀ x, c.Tx x = (1 : Matrix (Fin 1) (Fin 1) ℚ).mulVec x + 0 := fun x => by
    funext i
    change vecT ohm lamp x i = _
    rw [vecT_eq ohm (by simp [lamp, Apart])]
    fin_cases i
    simp [currents, devSum, devTerm, lamp, inj, ohm, Rlc.ext]
  have hJ : ∀ x, c.J x = 1 := fun x => by
    ext i j
    fin_cases i
    fin_cases j
    change matJ (1 / 10 ^ 12) ohm lamp x 0 0 = 1
    simp [matJ, updateJ, lamp, ohm]
    decide +kernel
  have hd : ((Op.problem c g .full).mna + 1).det ≠ 0 := by
    rw [Matrix.det_fin_one]
    have : ((Op.problem c g .full).mna + 1) 0 0 = 1 + g + 1 := by
      have h1 : (sysOf lamp 2).M 1 1 = 1 := by decide +kernel
      change (sysOf lamp 2).M 1 1 + Op.gminMat 1 g 0 0 + (1 : Matrix (Fin 1) (Fin 1) ℚ) 0 0 = _
      rw [h1]
      simp [Op.gminMat]
    rw [this]
    positivity
  obtain ⟨r, h1, h2, -, -⟩ := Newton.C78_affine opts.newton rfl opts.tol (by decide +kernel) (Op.problem c g .full) rfl
    rfl 1 0 hT hJ hd 100 (by norm_num) (some (x0.getD 0))
  refine ⟨r.x, ?_⟩
  have ha : Op.attempt opts (Op.problem c g .full) (x0.getD 0) = some (r.x, true) := by
    unfold Op.attempt
    rw [show opts.maxit = 100 from rfl, h1]
    simp only [h2]
  have hs : (Homotopy.setNext opts.meth Homotopy.init).std.enabled = true ∧
      (Homotopy.setNext opts.meth Homotopy.init).gm.enabled = false ∧
      (Homotopy.setNext opts.meth Homotopy.init).src.enabled = false := by decide
  unfold Op.dcSolve Op.loopX
  have : Homotopy.choose opts.meth (Homotopy.setNext opts.meth Homotopy.init) = .ok .full := by
    unfold Homotopy.choose
    rw [if_pos hs.1]
  rw [this]
  simp only [ha]
  simp only [Homotopy.after, hs, Bool.not_true, Bool.false_eq_true, if_false, Bool.false_and]

example (x0 : Option (Fin 1 → ℚ)) : ∃ r : Op.OpSol ℚ 1,
    Op.opAnalysis opts (Devices.opCirc 1 2 (1 / 10 ^ 12) ohm lamp (sysOf lamp 2)) (1 / 10 ^ 12) x0 = some (some r) ∧
    |r.x 0 - 2| ≤ 2 / 10 ^ 6 := by
  obtain ⟨x1, h1⟩ := lamp_solved (1 / 10 ^ 12) (by norm_num) x0
  obtain ⟨x2, h2⟩ := lamp_solved 0 le_rfl (some x1)
  have h3 : Op.opAnalysis opts (Devices.opCirc 1 2 (1 / 10 ^ 12) ohm lamp (sysOf lamp 2)) (1 / 10 ^ 12) x0 =
      some (some ⟨x2, 0⟩) := by
    unfold Op.opAnalysis
    rw [h1]
    simp only [h2]
  refine ⟨_, h3, ?_⟩
  have := C191_reported (c := 1 / 10 ^ 6) (y := ![2]) (by norm_num) (by norm_num) (by simp [lamp, NodesLt])
    (by simp [lamp, Devices.Part, TwoPole, Elem.nonlinear]) (by simp [lamp, Positive]) (by simp [lamp, Apart])
    (by simp [lamp, Grounded, Elem.vde, term]) (fun _ _ _ _ _ _ _ => monotone_id) (fun _ _ _ _ _ _ _ _ => zero_le_one) rfl rfl rfl
    opts ⟨rfl, rfl⟩ (by norm_num [opts]) x0 h3 ⟨by norm_num, by norm_num [opts], fun r h0 h1 hf => ?_⟩
    (show IsPoint 2 0 ohm lamp (sysOf lamp 2) ![2] by unfold IsPoint; decide +kernel) 0 (by norm_num)
  · exact this.trans (by norm_num)
  · obtain rfl : r = 1 := by omega
    simp [toGround, lamp, groundTerm, opts]
    norm_num

end Verif.Accuracy
