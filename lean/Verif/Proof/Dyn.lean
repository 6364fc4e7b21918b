import Verif.Model.Dyn
import Verif.Proof.Mna

namespace Verif.Dyn
open Verif.Circuit Verif.Mna

variable {α : Type} [Field α]

/-- voltage induced by the couplings of an inductor, `o` names the other one -/
def induced (circ : List (Elem α)) (nv : Nat) (x : Vec α) (id : String) (coup : List (Coupling α)) : α :=
  (coup.map (fun cd => match cd.other id with
    | .ok o => cd.M * x (nv + branchOf circ o)
    | .error _ => 0)).sum

theorem couplings_row {S nv row : Nat} {circ : List (Elem α)} {id : String} (x : Vec α)
    (hS : nv + (vdes circ).length ≤ S) {coup : List (Coupling α)} {D D' : Mat α}
    (h : loop (couplings circ nv row id) D coup = .ok D') (r : Nat) :
    mulVec S D' x r = mulVec S D x r - if r = row then induced circ nv x id coup else 0 := by
  induction coup generalizing D with
  | nil => simp only [loop, Except.ok.injEq] at h; subst h; simp [induced]
  | cons cd t ih =>
    simp only [loop, couplings] at h
    cases ho : cd.other id with
    | error => rw [ho] at h; simp at h
    | ok o =>
      rw [ho] at h; simp only at h
      cases hk : findVdeIndex circ o with
      | error => rw [hk] at h; simp at h
      | ok k =>
        rw [hk] at h; simp only at h
        obtain ⟨hb, hlt⟩ := findVdeIndex_branchOf hk
        rw [ih h, mulVec_add _ _ _ _ _ _ (by omega)]
        simp only [induced, List.map_cons, List.sum_cons, ho, hb]
        split_ifs <;> ring

/-- nothing is stored at or beyond index `z` -/
def SuppD (z : Nat) (D : Mat α) : Prop := ∀ a, z ≤ a → ∀ b, D a b = 0

/-- contribution of one element to row `r` -/
def cD (circ : List (Elem α)) (nv : Nat) (x : Vec α) (k : Nat) (e : Elem α) (r : Nat) : α :=
  match e with
  | .C _ n1 n2 v _ => inj n1 n2 (v * (x n1 - x n2)) r
  | .L id _ _ v _ coup =>
    if r = nv + k then -(v * x (nv + k)) - induced circ nv x id coup else 0
  | _ => 0

theorem couplings_supp {nv row z : Nat} {circ : List (Elem α)} {id : String}
    {coup : List (Coupling α)} {D D' : Mat α} (hz : row < z) (hs : SuppD z D)
    (h : loop (couplings circ nv row id) D coup = .ok D') : SuppD z D' := by
  induction coup generalizing D with
  | nil => simp only [loop, Except.ok.injEq] at h; subst h; exact hs
  | cons cd t ih =>
    simp only [loop, couplings] at h
    cases ho : cd.other id with
    | error => rw [ho] at h; simp at h
    | ok o =>
      rw [ho] at h; simp only at h
      cases hk : findVdeIndex circ o with
      | error => rw [hk] at h; simp at h
      | ok k =>
        rw [hk] at h; simp only at h
        refine ih ?_ h
        intro a ha b
        unfold Mat.add Mat.put
        rw [if_neg (by omega)]
        exact hs a ha b

theorem dStep_row {S nv : Nat} {circ : List (Elem α)} {s s' : DState α} {e : Elem α} (x : Vec α)
    (hS : nv + (vdes circ).length ≤ S) (he : NodesLt nv e) (hsz : e.vde = true → nv + s.iEq < S)
    (hs : SuppD (nv + s.iEq) s.D) (hn : nv ≤ S) (h : dStep circ nv s e = .ok s') :
    s'.iEq = s.iEq + (if e.vde then 1 else 0) ∧ SuppD (nv + s'.iEq) s'.D ∧
    ∀ r, mulVec S s'.D x r = mulVec S s.D x r + cD circ nv x s.iEq e r := by
  cases e with
  | L id n1 n2 v ic coup =>
    simp only [dStep] at h
    cases hl : loop (couplings circ nv (nv + s.iEq) id)
        (s.D.put (nv + s.iEq) (nv + s.iEq) (-1 * v)) coup with
    | error => rw [hl] at h; simp at h
    | ok D =>
      rw [hl] at h; simp only [Except.ok.injEq] at h; subst h
      refine ⟨by simp [Elem.vde], ?_, fun r => ?_⟩
      · refine couplings_supp (by simp) ?_ hl
        intro a ha b
        simp only at ha
        unfold Mat.put
        rw [if_neg (by omega)]
        exact hs a (by omega) b
      · simp only
        rw [couplings_row x hS hl r, mulVec_put _ _ _ _ _ _ (hsz rfl), hs _ (le_refl _)]
        simp only [cD]
        split_ifs <;> ring
  | C id n1 n2 v ic =>
    simp only [dStep, Except.ok.injEq] at h; subst h
    obtain ⟨h1, h2⟩ := he
    refine ⟨by simp [Elem.vde], ?_, fun r => ?_⟩
    · intro a ha b
      simp only at ha ⊢
      unfold Mat.add Mat.put
      rw [if_neg (by omega), if_neg (by omega), if_neg (by omega), if_neg (by omega)]
      exact hs a ha b
    · simp only
      rw [mulVec_add _ _ _ _ _ _ (by omega), mulVec_add _ _ _ _ _ _ (by omega),
        mulVec_add _ _ _ _ _ _ (by omega), mulVec_add _ _ _ _ _ _ (by omega)]
      simp only [cD, inj]
      split_ifs <;> ring
  | V | E | H =>
    simp only [dStep, Elem.vde, if_true, Except.ok.injEq] at h; subst h
    exact ⟨by simp [Elem.vde], fun a ha b => hs a (by simp only at ha; omega) b, fun r => by simp [cD]⟩
  | R | K | I | G | F | NL =>
    simp only [dStep, Elem.vde, Bool.false_eq_true, if_false, Except.ok.injEq] at h; subst h
    exact ⟨by simp [Elem.vde], hs, fun r => by simp [cD]⟩

def cDsum (circ : List (Elem α)) (nv : Nat) (x : Vec α) : List (Elem α) → Nat → Nat → α
  | [], _, _ => 0
  | e :: t, k, r => cD circ nv x k e r + cDsum circ nv x t (k + if e.vde then 1 else 0) r

theorem dLoop_row {S nv : Nat} {circ l : List (Elem α)} {s s' : DState α} (x : Vec α)
    (hS : nv + (vdes circ).length ≤ S) (he : ∀ e ∈ l, NodesLt nv e)
    (hsz : nv + s.iEq + (vdes l).length ≤ S)
    (hs : SuppD (nv + s.iEq) s.D) (h : loop (dStep circ nv) s l = .ok s') :
    s'.iEq = s.iEq + (vdes l).length ∧
    ∀ r, mulVec S s'.D x r = mulVec S s.D x r + cDsum circ nv x l s.iEq r := by
  induction l generalizing s with
  | nil => simp only [loop, Except.ok.injEq] at h; subst h; simp [cDsum, vdes_nil]
  | cons e t ih =>
    simp only [loop] at h
    rw [vdes_cons_length] at hsz ⊢
    cases hs1 : dStep circ nv s e with
    | error => rw [hs1] at h; simp at h
    | ok s1 =>
      rw [hs1] at h; simp only at h
      obtain ⟨a, b, c⟩ := dStep_row (S := S) x hS (he e (List.mem_cons_self ..))
        (fun hv => by simp only [hv, if_true] at hsz; omega) hs (by omega) hs1
      obtain ⟨a', c'⟩ := ih (fun e' h' => he e' (List.mem_cons_of_mem _ h')) (by omega) b h
      refine ⟨by omega, fun r => ?_⟩
      rw [c' r, c r, cDsum, a]; ring

/-- rows of the matrix assembled by `generate_D` -/
theorem generateD_row {nv : Nat} {circ : List (Elem α)} {cmin : α} {D : Mat α} (x : Vec α)
    (he : ∀ e ∈ circ, NodesLt nv e)
    (h : generateD circ nv (nv + (vdes circ).length) cmin = .ok D) (r : Nat) :
    mulVec (nv + (vdes circ).length) D x r =
      cDsum circ nv x circ 0 r +
      cmin * mulVec (nv + (vdes circ).length) (cminMat nv) x r := by
  unfold generateD at h
  cases hl : loop (dStep circ nv) (⟨fun _ _ => 0, 0⟩ : DState α) circ with
  | error => rw [hl] at h; simp at h
  | ok s =>
    rw [hl] at h; simp only [Except.ok.injEq] at h; subst h
    obtain ⟨hq, hr⟩ := dLoop_row (S := nv + (vdes circ).length) x (le_refl _) he (by simp)
      (fun _ _ _ => rfl) hl
    simp only [Nat.zero_add] at hq
    rw [hq, Nat.add_sub_cancel]
    have := hr r
    simp only [mulVec, zero_mul, Finset.sum_const_zero, zero_add] at this ⊢
    rw [← this, Finset.mul_sum, ← Finset.sum_add_distrib]
    exact Finset.sum_congr rfl (fun _ _ => by ring)

theorem cmin_row {nv S : Nat} (hS : nv ≤ S) (x : Vec α) (h0 : x 0 = 0) (r : Nat) (hr : 0 < r) :
    mulVec S (cminMat nv : Mat α) x r = if r < nv then x r else 0 := by
  unfold mulVec cminMat
  by_cases hlt : r < nv
  · rw [if_pos hlt, Finset.sum_eq_single r]
    · rw [if_neg (by omega), if_neg (by omega), if_neg (by omega), if_pos rfl, one_mul]
    · intro b hb hne
      by_cases hbn : nv ≤ b
      · rw [if_pos (by omega), zero_mul]
      · rw [if_neg (by omega), if_neg (by omega)]
        by_cases hb0 : b = 0
        · subst hb0; rw [h0, mul_zero]
        · rw [if_neg (by omega), if_neg (by omega), zero_mul]
    · intro hn
      exact absurd (Finset.mem_range.mpr (by omega)) hn
  · rw [if_neg hlt]
    apply Finset.sum_eq_zero
    intro b _
    rw [if_pos (by omega), zero_mul]

end Verif.Dyn
