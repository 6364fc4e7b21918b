import Verif.Model.Symbolic
import Verif.Props.Dyn
import Verif.Props.MnaOrder

/-!
Comparison of the symbolic assembler (symbolic.py) with the numeric ones
(dc_analysis.py, transient.py), entry by entry.
-/

namespace Verif.Symbolic
open Verif.Circuit Verif.Mna Verif.Dyn

variable {α : Type} [Field α]

/-- a matrix with a single entry -/
def δ (i j : Nat) (v : α) : Mat α := fun a b => if a = i ∧ b = j then v else 0

theorem add_apply (M : Mat α) (i j : Nat) (v : α) (a b : Nat) :
    (M.add i j v) a b = M a b + δ i j v a b := by
  unfold Mat.add Mat.put δ
  split_ifs with h
  · rw [h.1, h.2]
  · rw [add_zero]

theorem δ_mul (i j : Nat) (v w : α) (a b : Nat) : δ i j (v * w) a b = v * δ i j w a b := by
  unfold δ; split_ifs <;> simp

/-- entries due to a capacitor -/
def capD : Elem α → Mat α
  | .C _ n1 n2 v _ => fun a b =>
    δ n1 n1 v a b + δ n1 n2 (-v) a b + δ n2 n2 v a b + δ n2 n1 (-v) a b
  | _ => fun _ _ => 0

/-- entry due to the self inductance of the branch `z` -/
def selfD (z : Nat) : Elem α → Mat α
  | .L _ _ _ v _ _ => δ z z (-v)
  | _ => fun _ _ => 0

/-- entries due to the couplings of the branch `z` -/
def coupD (circ : List (Elem α)) (nv z : Nat) (id : String) : List (Coupling α) → Mat α
  | [] => fun _ _ => 0
  | cd :: r => fun a b =>
    δ z (nv + branchOf circ (okOr "" (cd.other id))) (-cd.M) a b + coupD circ nv z id r a b

def mutD (circ : List (Elem α)) (nv z : Nat) : Elem α → Mat α
  | .L id _ _ _ _ coup => coupD circ nv z id coup
  | _ => fun _ _ => 0

def capSum : List (Elem α) → Mat α
  | [] => fun _ _ => 0
  | e :: r => fun a b => capD e a b + capSum r a b

def selfSum (z : Nat) : List (Elem α) → Mat α
  | [] => fun _ _ => 0
  | e :: r => fun a b => selfD z e a b + selfSum (z + if e.vde then 1 else 0) r a b

def mutSum (circ : List (Elem α)) (nv z : Nat) : List (Elem α) → Mat α
  | [] => fun _ _ => 0
  | e :: r => fun a b => mutD circ nv z e a b + mutSum circ nv (z + if e.vde then 1 else 0) r a b

theorem couplings_entries {circ : List (Elem α)} {nv row : Nat} {id : String}
    {l : List (Coupling α)} {D D' : Mat α}
    (h : loop (couplings circ nv row id) D l = .ok D') (a b : Nat) :
    D' a b = D a b + coupD circ nv row id l a b := by
  induction l generalizing D with
  | nil => simp only [loop, Except.ok.injEq] at h; subst h; simp [coupD]
  | cons cd r ih =>
    simp only [loop] at h
    cases hs : couplings circ nv row id D cd with
    | error => rw [hs] at h; simp at h
    | ok D1 =>
      rw [hs] at h; simp only at h
      rw [ih h]
      simp only [couplings] at hs
      cases ho : cd.other id with
      | error => rw [ho] at hs; simp at hs
      | ok o =>
        rw [ho] at hs; simp only at hs
        cases hk : findVdeIndex circ o with
        | error => rw [hk] at hs; simp at hs
        | ok k =>
          rw [hk] at hs; simp only [Except.ok.injEq] at hs; subst hs
          rw [add_apply, coupD, ho, okOr, (findVdeIndex_branchOf hk).1, neg_one_mul]
          ring

theorem dStep_entries {circ : List (Elem α)} {nv : Nat} {s s' : DState α} {e : Elem α}
    (he : NodesLt nv e) (hs : SuppD (nv + s.iEq) s.D) (h : dStep circ nv s e = .ok s') :
    s'.iEq = s.iEq + (if e.vde then 1 else 0) ∧ SuppD (nv + s'.iEq) s'.D ∧
    ∀ a b, s'.D a b = s.D a b + capD e a b + selfD (nv + s.iEq) e a b +
      mutD circ nv (nv + s.iEq) e a b := by
  cases e with
  | L id n1 n2 v ic coup =>
    simp only [dStep] at h
    cases hl : loop (couplings circ nv (nv + s.iEq) id)
        (s.D.put (nv + s.iEq) (nv + s.iEq) (-1 * v)) coup with
    | error => rw [hl] at h; simp at h
    | ok D =>
      rw [hl] at h; simp only [Except.ok.injEq] at h; subst h
      have hp : ∀ a b, (s.D.put (nv + s.iEq) (nv + s.iEq) (-1 * v)) a b =
          s.D a b + δ (nv + s.iEq) (nv + s.iEq) (-v) a b := by
        intro a b
        unfold Mat.put δ
        split_ifs with hc
        · rw [hs a (by omega) b]; ring
        · rw [add_zero]
      have key : ∀ a b, D a b = s.D a b + δ (nv + s.iEq) (nv + s.iEq) (-v) a b +
          coupD circ nv (nv + s.iEq) id coup a b := fun a b => by
        rw [couplings_entries hl, hp]
      refine ⟨by simp [Elem.vde], fun a ha b => ?_, fun a b => ?_⟩
      · have ha' : nv + s.iEq + 1 ≤ a := by simpa [Nat.add_assoc] using ha
        have hz : ∀ l : List (Coupling α), coupD circ nv (nv + s.iEq) id l a b = 0 := by
          intro l
          induction l with
          | nil => rfl
          | cons cd r ih =>
            simp only [coupD, ih, δ]
            rw [if_neg (by omega)]; simp
        change D a b = 0
        rw [key, hs a (by omega) b, hz coup]
        unfold δ; rw [if_neg (by omega)]; simp
      · simp only [capD, selfD, mutD]
        rw [key]; ring
  | C id n1 n2 v ic =>
    simp only [dStep, Except.ok.injEq] at h; subst h
    simp only [NodesLt] at he
    refine ⟨by simp [Elem.vde], fun a ha b => ?_, fun a b => ?_⟩
    · have ha' : nv + s.iEq ≤ a := ha
      simp only [add_apply, hs a ha' b]
      unfold δ
      rw [if_neg (by omega), if_neg (by omega), if_neg (by omega), if_neg (by omega)]; simp
    · simp only [add_apply, capD, selfD, mutD]; ring
  | V | E | H =>
    simp only [dStep, Elem.vde, if_true, Except.ok.injEq] at h; subst h
    exact ⟨by simp [Elem.vde], fun a ha b => hs a (by simp only at ha; omega) b,
      fun a b => by simp [capD, selfD, mutD]⟩
  | R | K | I | G | F | NL =>
    simp only [dStep, Elem.vde, Bool.false_eq_true, if_false, Except.ok.injEq] at h; subst h
    exact ⟨by simp [Elem.vde], hs, fun a b => by simp [capD, selfD, mutD]⟩

theorem dLoop_entries {circ : List (Elem α)} {nv : Nat} {l : List (Elem α)} {s s' : DState α}
    (he : ∀ e ∈ l, NodesLt nv e) (hs : SuppD (nv + s.iEq) s.D)
    (h : loop (dStep circ nv) s l = .ok s') (a b : Nat) :
    s'.D a b = s.D a b + capSum l a b + selfSum (nv + s.iEq) l a b +
      mutSum circ nv (nv + s.iEq) l a b := by
  induction l generalizing s with
  | nil => simp only [loop, Except.ok.injEq] at h; subst h; simp [capSum, selfSum, mutSum]
  | cons e t ih =>
    simp only [loop] at h
    cases hs1 : dStep circ nv s e with
    | error => rw [hs1] at h; simp at h
    | ok s1 =>
      rw [hs1] at h; simp only at h
      obtain ⟨p, q, r⟩ := dStep_entries (he e (List.mem_cons_self ..)) hs hs1
      rw [ih (fun e' h' => he e' (List.mem_cons_of_mem _ h')) q h, r]
      simp only [capSum, selfSum, mutSum, p, Nat.add_assoc]
      ring

theorem generateD_entries {circ : List (Elem α)} {nv S : Nat} {D : Mat α}
    (he : ∀ e ∈ circ, NodesLt nv e) (h : generateD circ nv S 0 = .ok D) (a b : Nat) :
    D a b = capSum circ a b + selfSum nv circ a b + mutSum circ nv nv circ a b := by
  simp only [generateD] at h
  cases hl : loop (dStep circ nv) ⟨fun _ _ => 0, 0⟩ circ with
  | error => rw [hl] at h; simp at h
  | ok s =>
    rw [hl] at h; simp only [Except.ok.injEq] at h; subst h
    have := dLoop_entries he (s := ⟨fun _ _ => 0, 0⟩) (fun _ _ _ => rfl) hl a b
    simp only [this, Nat.add_zero]; ring

/-- The valuation gives every element its value: a resistor symbol the resistance, and so
on. The exceptions of the symbolic assembler are excluded (numeric `GISource`, numeric
`Inductor`), numeric couplings too, and so are time-dependent sources, whose value is not
part of the numeric matrices. -/
def Fit (c : Cfg α) : Elem α → Prop
  | .R id _ _ r => c.isSym id = true → c.ρ (c.subst (factory id.toList true true)) = r
  | .C id _ _ v _ =>
    c.ac = true → c.isSym id = true → c.ρ (c.subst (factory id.toList true true)) = v
  | .L id _ _ v _ coup =>
    c.ac = true → c.isSym id = true ∧ c.ρ (c.subst (factory id.toList true true)) = v ∧
      ∀ cd ∈ coup, c.isSym cd.id = true ∧ c.ρ (c.subst (factory cd.id.toList true true)) = cd.M
  | .V id _ _ src | .I id _ _ src =>
    src.timeDep = false ∧
      ∀ v, src.dc = some v → c.isSym id = true → c.ρ (c.subst (factory id.toList false false)) = v
  | .E id _ _ _ _ a | .F id _ _ _ a | .H id _ _ _ a =>
    c.isSym id = true → c.ρ (c.subst (factory id.toList true false)) = a
  | .G id _ _ _ _ a =>
    c.isSym id = true ∧ c.ρ (c.subst (factory id.toList true false)) = a
  | .K _ => True
  | .NL .. => False

/-- `subs_g` maps every conductance symbol to the inverse of its resistor symbol -/
def Inverse (c : Cfg α) (circ : List (Elem α)) : Prop :=
  ∀ p ∈ subsG c circ, c.ρ p.1 = 1 / c.ρ p.2

theorem conductance_eq {c : Cfg α} {circ : List (Elem α)} {id : String} {n1 n2 : Nat} {r : α}
    (hg : Inverse c circ) (hm : Elem.R id n1 n2 r ∈ circ) (hf : Fit c (.R id n1 n2 r)) :
    c.conductance id r = 1 / r := by
  unfold Cfg.conductance
  by_cases hs : c.isSym id = true
  · rw [if_pos hs]
    have hr := hf hs
    by_cases hgs : c.gs = true
    · rw [if_pos hgs]
      have hmem : (condSym (c.subst (factory id.toList true true)),
          c.subst (factory id.toList true true)) ∈ subsG c circ := by
        clear hg hr
        induction circ with
        | nil => simp at hm
        | cons e t ih =>
          rcases List.mem_cons.mp hm with rfl | hm'
          · simp [subsG, hs, hgs]
          · have := ih hm'
            cases e with
            | R => simp only [subsG]; split_ifs <;> simp [this]
            | _ => simpa [subsG] using this
      rw [hg _ hmem]; simp only [hr]
    · rw [if_neg hgs, hr]
  · rw [if_neg hs]

theorem param_eq {c : Cfg α} {id : String} {x : Sym} {v : α}
    (h : c.isSym id = true → c.ρ (c.subst x) = v) : c.param id x (.ok v) = .ok v := by
  unfold Cfg.param
  by_cases hs : c.isSym id = true
  · rw [if_pos hs, h hs]
  · rw [if_neg hs]

theorem param_sym {c : Cfg α} {id : String} {x : Sym} {v : α} {n : Except Err α}
    (h : c.isSym id = true) (hv : c.ρ (c.subst x) = v) : c.param id x n = .ok v := by
  unfold Cfg.param; rw [if_pos h, hv]

/-- the Laplace variable, or 0 in a DC analysis -/
def Cfg.sig (c : Cfg α) : α := if c.ac then c.s else 0

/-- `t` is `s` plus the Laplace variable times `A` -/
structure Rel (c : Cfg α) (A : Mat α) (s t : Sys α) : Prop where
  size : t.size = s.size
  N : t.N = s.N
  M : ∀ a b, t.M a b = s.M a b + c.sig * A a b

theorem stamp1_rel {c : Cfg α} {circ : List (Elem α)} {A : Mat α} {s s' t : Sys α} {e : Elem α}
    (hg : Inverse c circ) (hm : e ∈ circ) (hf : Fit c e)
    (hr : Rel c A s t) (h : stamp1 s e = .ok s') :
    ∃ t', symStamp1 c t e = .ok t' ∧ Rel c (fun a b => A a b + capD e a b) s' t' := by
  cases e with
  | R id n1 n2 r =>
    simp only [stamp1, Except.ok.injEq] at h; subst h
    refine ⟨_, rfl, hr.size, hr.N, fun a b => ?_⟩
    rw [conductance_eq hg hm hf]
    simp only [add_apply, hr.M, capD]; ring
  | C id n1 n2 v ic =>
    simp only [stamp1, Except.ok.injEq] at h; subst h
    by_cases hac : c.ac = true
    · refine ⟨?_, ?_, ?_⟩
      rotate_left
      · simp only [symStamp1]
        rw [if_pos hac, param_eq (hf hac)]
      · refine ⟨hr.size, hr.N, fun a b => ?_⟩
        have hsig : c.sig = c.s := by simp [Cfg.sig, hac]
        simp only [add_apply, hr.M, capD, ← mul_neg, δ_mul, hsig]; ring
    · refine ⟨t, ?_, hr.size, hr.N, fun a b => ?_⟩
      · simp only [symStamp1]; rw [if_neg hac]
      · simp [hr.M, Cfg.sig, hac]
  | G id n1 n2 sn1 sn2 v =>
    simp only [stamp1, Except.ok.injEq] at h; subst h
    refine ⟨?_, ?_, ?_⟩
    rotate_left
    · simp only [symStamp1]
      rw [param_sym hf.1 hf.2]
    · refine ⟨hr.size, hr.N, fun a b => ?_⟩
      simp only [add_apply, hr.M, capD]; ring
  | I id n1 n2 src =>
    simp only [stamp1] at h
    rw [if_neg (by simp [hf.1]), Src.eval_static _ _ hf.1] at h
    cases hd : src.dc with
    | none => rw [hd] at h; simp at h
    | some v =>
      rw [hd] at h; simp only [Except.ok.injEq] at h; subst h
      refine ⟨?_, ?_, ?_⟩
      rotate_left
      · simp only [symStamp1, dcValue, hd]
        rw [param_eq (hf.2 v hd)]
      · exact ⟨hr.size, by simp only [hr.N], fun a b => by simp [hr.M, capD]⟩
  | L | K | V | E | F | H =>
    simp only [stamp1, Except.ok.injEq] at h; subst h
    exact ⟨t, rfl, hr.size, hr.N, fun a b => by simp [hr.M, capD]⟩
  | NL => exact absurd hf (by simp [Fit])

theorem loop1_rel {c : Cfg α} {circ l : List (Elem α)} {A : Mat α} {s s' t : Sys α}
    (hg : Inverse c circ) (hm : ∀ e ∈ l, e ∈ circ) (hf : ∀ e ∈ l, Fit c e)
    (hr : Rel c A s t) (h : loop stamp1 s l = .ok s') :
    ∃ t', loop (symStamp1 c) t l = .ok t' ∧ Rel c (fun a b => A a b + capSum l a b) s' t' := by
  induction l generalizing s t A with
  | nil =>
    simp only [loop, Except.ok.injEq] at h; subst h
    exact ⟨t, rfl, hr.size, hr.N, fun a b => by simp [hr.M, capSum]⟩
  | cons e r ih =>
    simp only [loop] at h
    cases hs1 : stamp1 s e with
    | error => rw [hs1] at h; simp at h
    | ok s1 =>
      rw [hs1] at h; simp only at h
      obtain ⟨t1, ht1, hr1⟩ := stamp1_rel hg (hm e (List.mem_cons_self ..))
        (hf e (List.mem_cons_self ..)) hr hs1
      obtain ⟨t2, ht2, hr2⟩ := ih (fun e' h' => hm e' (List.mem_cons_of_mem _ h'))
        (fun e' h' => hf e' (List.mem_cons_of_mem _ h')) hr1 h
      refine ⟨t2, ?_, hr2.size, hr2.N, fun a b => ?_⟩
      · simp only [loop, ht1]; exact ht2
      · rw [hr2.M]; simp only [capSum]; ring

theorem stamp2_rel {c : Cfg α} {circ : List (Elem α)} {nv : Nat} {A : Mat α} {s s' t : Sys α}
    {e : Elem α} (he : NodesLt nv e) (hnv : nv ≤ s.size) (hs : ∀ a b, s.size ≤ a ∨ s.size ≤ b → s.M a b = 0) (hf : Fit c e)
    (hA : ∀ a b, s.size ≤ a ∨ s.size ≤ b → A a b = 0)
    (hr : Rel c A s t) (h : stamp2 circ nv s e = .ok s') :
    s'.size = s.size + (if e.vde then 1 else 0) ∧
    (∀ a b, s'.size ≤ a ∨ s'.size ≤ b → A a b + selfD s.size e a b = 0) ∧
    ∃ t', symStamp2 c circ nv t e = .ok t' ∧
      Rel c (fun a b => A a b + selfD s.size e a b) s' t' := by
  have hA' : ∀ a b, s.size + 1 ≤ a ∨ s.size + 1 ≤ b → A a b = 0 := fun a b h => hA a b (by omega)
  have hz : ∀ a b, s.size = a ∨ s.size = b → A a b = 0 := fun a b h => hA a b (by omega)
  have kp : ∀ (P Q : Mat α) (i j : Nat) (v : α), (i = s.size ∨ j = s.size) →
      (∀ a b, P a b = Q a b + c.sig * A a b) →
      ∀ a b, (P.put i j v) a b = (Q.put i j v) a b + c.sig * A a b := by
    intro P Q i j v hij hPQ a b
    unfold Mat.put
    split_ifs with hc
    · rw [hz a b (by omega)]; ring
    · exact hPQ a b
  cases e with
  | V id n1 n2 src =>
    simp only [stamp2] at h
    rw [if_neg (by simp [hf.1]), Src.eval_static _ _ hf.1] at h
    cases hd : src.dc with
    | none => rw [hd] at h; simp at h
    | some v =>
      rw [hd] at h; simp only [Except.ok.injEq] at h; subst h
      refine ⟨by simp [Elem.vde], fun a b h => by simp [selfD, hA' a b h], ?_, ?_, ?_⟩
      rotate_left
      · simp only [symStamp2, dcValue, hd]
        rw [param_eq (hf.2 v hd)]
      · refine ⟨by simp [hr.size], by simp only [hr.N, hr.size], fun a b => ?_⟩
        simp only [selfD, add_zero, hr.size]
        exact kp _ _ _ _ _ (.inl rfl) (kp _ _ _ _ _ (.inl rfl) (kp _ _ _ _ _ (.inr rfl)
          (kp _ _ _ _ _ (.inr rfl) hr.M))) a b
  | E id n1 n2 sn1 sn2 v =>
    simp only [stamp2, Except.ok.injEq] at h; subst h
    refine ⟨by simp [Elem.vde], fun a b h => by simp [selfD, hA' a b h], ?_, ?_, ?_⟩
    rotate_left
    · simp only [symStamp2]
      rw [param_eq hf]
    · refine ⟨by simp [hr.size], hr.N, fun a b => ?_⟩
      simp only [selfD, add_zero, hr.size]
      exact kp _ _ _ _ _ (.inl rfl) (kp _ _ _ _ _ (.inl rfl) (kp _ _ _ _ _ (.inl rfl)
        (kp _ _ _ _ _ (.inl rfl) (kp _ _ _ _ _ (.inr rfl) (kp _ _ _ _ _ (.inr rfl) hr.M))))) a b
  | H id n1 n2 src v =>
    simp only [stamp2] at h
    cases hk : findVdeIndex circ src with
    | error => rw [hk] at h; simp at h
    | ok k =>
      rw [hk] at h; simp only at h
      by_cases hlt : nv + k < s.size + 1
      · rw [if_pos hlt] at h
        simp only [Except.ok.injEq] at h; subst h
        refine ⟨by simp [Elem.vde], fun a b h => by simp [selfD, hA' a b h], ?_, ?_, ?_⟩
        rotate_left
        · simp only [symStamp2]
          rw [param_eq hf, hk]; simp only
          rw [if_pos (by rw [hr.size]; exact hlt)]
        · refine ⟨by simp [hr.size], hr.N, fun a b => ?_⟩
          simp only [selfD, add_zero, hr.size]
          exact kp _ _ _ _ _ (.inl rfl) (kp _ _ _ _ _ (.inl rfl) (kp _ _ _ _ _ (.inl rfl)
            (kp _ _ _ _ _ (.inr rfl) (kp _ _ _ _ _ (.inr rfl) hr.M)))) a b
      · rw [if_neg hlt] at h; simp at h
  | L id n1 n2 v ic coup =>
    simp only [stamp2, Except.ok.injEq] at h; subst h
    simp only [NodesLt] at he
    have hkcl := fun a b => kp _ _ s.size n2 (-1) (.inl rfl) (kp _ _ s.size n1 1 (.inl rfl)
      (kp _ _ n2 s.size (-1) (.inr rfl) (kp _ _ n1 s.size 1 (.inr rfl) hr.M))) a b
    refine ⟨by simp [Elem.vde], fun a b h => ?_, ?_⟩
    · have h' : s.size + 1 ≤ a ∨ s.size + 1 ≤ b := h
      simp only [selfD, δ, hA' a b h']
      rw [if_neg (by omega)]; simp
    · by_cases hac : c.ac = true
      · obtain ⟨f1, f2, _⟩ := hf hac
        refine ⟨?_, ?_, ?_⟩
        rotate_left
        · simp only [symStamp2]
          rw [if_pos hac, param_sym f1 f2]
        · refine ⟨by simp [hr.size], hr.N, fun a b => ?_⟩
          have hsig : c.sig = c.s := by simp [Cfg.sig, hac]
          simp only [selfD, hr.size]
          have hk0 := hkcl a b
          by_cases hd : a = s.size ∧ b = s.size
          · obtain ⟨rfl, rfl⟩ := hd
            have hz0 : s.M s.size s.size = 0 := hs _ _ (.inl le_rfl)
            have e1 : ∀ (P : Mat α) (i j : Nat) (w : α), ¬ (s.size = i ∧ s.size = j) →
                (P.put i j w) s.size s.size = P s.size s.size := by
              intro P i j w hij; unfold Mat.put; rw [if_neg hij]
            rw [e1 _ s.size n2 _ (by omega), e1 _ s.size n1 _ (by omega),
              e1 _ n2 s.size _ (by omega), e1 _ n1 s.size _ (by omega), hz0]
            simp [Mat.put, δ, hz s.size s.size (.inl rfl), hsig]
          · have : δ s.size s.size (-v) a b = 0 := by unfold δ; rw [if_neg hd]
            rw [this, add_zero, ← hk0]
            simp only [Mat.put]
            rw [if_neg hd]
      · refine ⟨?_, ?_, ?_⟩
        rotate_left
        · simp only [symStamp2]
          rw [if_neg hac]
        · refine ⟨by simp [hr.size], hr.N, fun a b => ?_⟩
          have hsig : c.sig = 0 := by simp [Cfg.sig, hac]
          have hk0 := hkcl a b
          simp only [hsig, zero_mul, add_zero] at hk0
          simp only [hr.size, hsig, zero_mul, add_zero]
          exact hk0
  | R | C | K | I | G | F =>
    simp only [stamp2, Except.ok.injEq] at h; subst h
    exact ⟨by simp [Elem.vde], fun a b h => by simp [selfD, hA a b h], t, rfl, hr.size, hr.N,
      fun a b => by simp [hr.M, selfD]⟩
  | NL => exact absurd hf (by simp [Fit])

/-- nothing is stored in the matrix outside the current size -/
def SuppM (s : Sys α) : Prop := ∀ a b, s.size ≤ a ∨ s.size ≤ b → s.M a b = 0

theorem stamp2_suppM {circ : List (Elem α)} {nv : Nat} {s s' : Sys α} {e : Elem α}
    (he : NodesLt nv e) (hnv : nv ≤ s.size) (hs : SuppM s) (h : stamp2 circ nv s e = .ok s') :
    SuppM s' := by
  have kz : ∀ (n1 n2 : Nat), n1 < nv → n2 < nv → ∀ a b, s.size + 1 ≤ a ∨ s.size + 1 ≤ b →
      ((((s.M.put n1 s.size 1).put n2 s.size (-1)).put s.size n1 1).put s.size n2 (-1)) a b = 0 := by
    intro n1 n2 h1 h2 a b hab
    rw [put_zero _ (s.size + 1) _ _ _ _ _ (by omega) (by omega) hab,
      put_zero _ (s.size + 1) _ _ _ _ _ (by omega) (by omega) hab,
      put_zero _ (s.size + 1) _ _ _ _ _ (by omega) (by omega) hab,
      put_zero _ (s.size + 1) _ _ _ _ _ (by omega) (by omega) hab]
    exact hs a b (by omega)
  cases e with
  | V id n1 n2 src =>
    simp only [stamp2] at h
    by_cases ht : src.timeDep = true
    · simp only [ht, if_true, Except.ok.injEq] at h; subst h
      exact kz n1 n2 he.1 he.2
    · simp only [ht, if_false] at h
      cases hd : src.eval none with
      | none => rw [hd] at h; simp at h
      | some v =>
        rw [hd] at h; simp only [Bool.false_eq_true, if_false, Except.ok.injEq] at h; subst h
        exact kz n1 n2 he.1 he.2
  | E id n1 n2 sn1 sn2 v =>
    simp only [stamp2, Except.ok.injEq] at h; subst h
    intro a b hab
    obtain ⟨h1, h2, h3, h4⟩ := he
    have hab' : s.size + 1 ≤ a ∨ s.size + 1 ≤ b := hab
    simp only
    rw [put_zero _ (s.size + 1) _ _ _ _ _ (by omega) (by omega) hab',
      put_zero _ (s.size + 1) _ _ _ _ _ (by omega) (by omega) hab']
    exact kz n1 n2 h1 h2 a b hab'
  | H id n1 n2 src v =>
    simp only [stamp2] at h
    cases hk : findVdeIndex circ src with
    | error => rw [hk] at h; simp at h
    | ok k =>
      rw [hk] at h; simp only at h
      by_cases hlt : nv + k < s.size + 1
      · rw [if_pos hlt] at h
        simp only [Except.ok.injEq] at h; subst h
        intro a b hab
        have hab' : s.size + 1 ≤ a ∨ s.size + 1 ≤ b := hab
        simp only
        rw [put_zero _ (s.size + 1) _ _ _ _ _ (by omega) (by omega) hab']
        exact kz n1 n2 he.1 he.2 a b hab'
      · rw [if_neg hlt] at h; simp at h
  | L id n1 n2 v ic coup =>
    simp only [stamp2, Except.ok.injEq] at h; subst h
    exact kz n1 n2 he.1 he.2
  | R | C | K | I | G | F | NL => simp only [stamp2, Except.ok.injEq] at h; subst h; exact hs

theorem loop2_rel {c : Cfg α} {circ l : List (Elem α)} {nv : Nat} {A : Mat α} {s s' t : Sys α}
    (he : ∀ e ∈ l, NodesLt nv e) (hnv : nv ≤ s.size) (hs : SuppM s) (hf : ∀ e ∈ l, Fit c e)
    (hA : ∀ a b, s.size ≤ a ∨ s.size ≤ b → A a b = 0)
    (hr : Rel c A s t) (h : loop (stamp2 circ nv) s l = .ok s') :
    ∃ t', loop (symStamp2 c circ nv) t l = .ok t' ∧
      Rel c (fun a b => A a b + selfSum s.size l a b) s' t' := by
  induction l generalizing s t A with
  | nil =>
    simp only [loop, Except.ok.injEq] at h; subst h
    exact ⟨t, rfl, hr.size, hr.N, fun a b => by simp [hr.M, selfSum]⟩
  | cons e r ih =>
    simp only [loop] at h
    cases hs1 : stamp2 circ nv s e with
    | error => rw [hs1] at h; simp at h
    | ok s1 =>
      rw [hs1] at h; simp only at h
      have hm := List.mem_cons_self (a := e) (l := r)
      obtain ⟨hz1, hA1, t1, ht1, hr1⟩ := stamp2_rel (he e hm) hnv hs (hf e hm) hA hr hs1
      obtain ⟨t2, ht2, hr2⟩ := ih (fun e' h' => he e' (List.mem_cons_of_mem _ h'))
        (by omega) (stamp2_suppM (he e hm) hnv hs hs1)
        (fun e' h' => hf e' (List.mem_cons_of_mem _ h')) hA1 hr1 h
      refine ⟨t2, ?_, hr2.size, hr2.N, fun a b => ?_⟩
      · simp only [loop, ht1]; exact ht2
      · rw [hr2.M]; simp only [selfSum, hz1]; ring

theorem symCoupling_loop {c : Cfg α} {circ : List (Elem α)} {nv z row : Nat} {id : String}
    {l : List (Coupling α)} {D D' M : Mat α}
    (hf : ∀ cd ∈ l, c.isSym cd.id = true ∧ c.ρ (c.subst (factory cd.id.toList true true)) = cd.M)
    (h : loop (couplings circ nv row id) D l = .ok D') :
    ∃ M', loop (symCoupling c circ z nv id) M l = .ok M' ∧
      ∀ a b, M' a b = M a b + c.s * coupD circ nv z id l a b := by
  induction l generalizing D M with
  | nil => exact ⟨M, rfl, fun a b => by simp [coupD]⟩
  | cons cd r ih =>
    simp only [loop] at h
    cases hs : couplings circ nv row id D cd with
    | error => rw [hs] at h; simp at h
    | ok D1 =>
      rw [hs] at h; simp only at h
      obtain ⟨f1, f2⟩ := hf cd (List.mem_cons_self ..)
      simp only [couplings] at hs
      cases ho : cd.other id with
      | error => rw [ho] at hs; simp at hs
      | ok o =>
        rw [ho] at hs; simp only at hs
        cases hk : findVdeIndex circ o with
        | error => rw [hk] at hs; simp at hs
        | ok k =>
          obtain ⟨M', hM', hE⟩ := ih (M := M.add z (nv + k) (-c.s * cd.M))
            (fun cd' h' => hf cd' (List.mem_cons_of_mem _ h')) h
          refine ⟨M', ?_, fun a b => ?_⟩
          · have : symCoupling c circ z nv id M cd = .ok (M.add z (nv + k) (-c.s * cd.M)) := by
              unfold symCoupling
              rw [param_sym f1 f2, ho]; simp only; rw [hk]
            simp only [loop, this]; exact hM'
          · rw [hE, add_apply, coupD, ho, okOr, ← (findVdeIndex_branchOf hk).1, neg_mul_comm, δ_mul]
            ring

theorem stamp3_rel {c : Cfg α} {circ : List (Elem α)} {nv z : Nat} {A : Mat α} {s s' t : Sys α}
    {e : Elem α} (hf : Fit c e) (hz : e.vde = true → findVdeIndex circ e.id = .ok z)
    (hd : c.ac = true → ∀ id n1 n2 v ic coup, e = .L id n1 n2 v ic coup →
      ∃ row D D', loop (couplings circ nv row id) D coup = .ok D')
    (hr : Rel c A s t) (h : stamp3 circ nv s e = .ok s') :
    ∃ t', symStamp3 c circ nv t e = .ok t' ∧
      Rel c (fun a b => A a b + mutD circ nv (nv + z) e a b) s' t' := by
  cases e with
  | L id n1 n2 v ic coup =>
    simp only [stamp3, Except.ok.injEq] at h; subst h
    by_cases hac : c.ac = true
    · obtain ⟨row, D, D', hl⟩ := hd hac id n1 n2 v ic coup rfl
      obtain ⟨_, _, f3⟩ := hf hac
      obtain ⟨M', hM', hE⟩ := symCoupling_loop (M := t.M) (z := nv + z) f3 hl
      refine ⟨{ t with M := M' }, ?_, hr.size, hr.N, fun a b => ?_⟩
      · have hz' := hz rfl
        simp only [Elem.id] at hz'
        simp only [symStamp3]
        rw [if_pos hac, hz']; simp only
        rw [hM']
      · have hsig : c.sig = c.s := by simp [Cfg.sig, hac]
        simp only [hE, hr.M, mutD, hsig]; ring
    · refine ⟨t, ?_, hr.size, hr.N, fun a b => ?_⟩
      · simp only [symStamp3]; rw [if_neg hac]
      · simp [hr.M, Cfg.sig, hac]
  | F id n1 n2 src v =>
    simp only [stamp3] at h
    cases hk : findVdeIndex circ src with
    | error => rw [hk] at h; simp at h
    | ok k =>
      rw [hk] at h; simp only [Except.ok.injEq] at h; subst h
      refine ⟨?_, ?_, ?_⟩
      rotate_left
      · simp only [symStamp3]
        rw [hk]; simp only
        rw [param_eq hf]
      · exact ⟨hr.size, hr.N, fun a b => by simp only [add_apply, hr.M, mutD]; ring⟩
  | R | C | K | I | G | V | E | H =>
    simp only [stamp3, Except.ok.injEq] at h; subst h
    exact ⟨t, rfl, hr.size, hr.N, fun a b => by simp [hr.M, mutD]⟩
  | NL => exact absurd hf (by simp [Fit])

omit [Field α] in
theorem findVdeIndex_unique {circ : List (Elem α)} (hu : UniqueVde circ) {k : Nat} {e : Elem α}
    (h : (vdes circ)[k]? = some e) : findVdeIndex circ e.id = .ok k := by
  unfold findVdeIndex
  rw [findVdeIndexAux_ok]
  refine ⟨k, by omega, ⟨e, h, rfl⟩, fun j' e' hj' he' heq => ?_⟩
  obtain ⟨hk, h1⟩ := List.getElem?_eq_some_iff.mp h
  obtain ⟨hj, h2⟩ := List.getElem?_eq_some_iff.mp he'
  have := (List.Nodup.getElem_inj_iff hu (i := j') (j := k) (hi := by simpa using hj)
    (hj := by simpa using hk)).mp (by simp [h1, h2, heq])
  omega

theorem loop3_rel {c : Cfg α} {circ pre l : List (Elem α)} {nv : Nat} {A : Mat α}
    {s s' t : Sys α} (hc : circ = pre ++ l) (hu : UniqueVde circ) (hf : ∀ e ∈ l, Fit c e)
    (hd : c.ac = true → ∀ id n1 n2 v ic coup, Elem.L id n1 n2 v ic coup ∈ l →
      ∃ row D D', loop (couplings circ nv row id) D coup = .ok D')
    (hr : Rel c A s t) (h : loop (stamp3 circ nv) s l = .ok s') :
    ∃ t', loop (symStamp3 c circ nv) t l = .ok t' ∧
      Rel c (fun a b => A a b + mutSum circ nv (nv + (vdes pre).length) l a b) s' t' := by
  induction l generalizing s t A pre with
  | nil =>
    simp only [loop, Except.ok.injEq] at h; subst h
    exact ⟨t, rfl, hr.size, hr.N, fun a b => by simp [hr.M, mutSum]⟩
  | cons e r ih =>
    simp only [loop] at h
    cases hs1 : stamp3 circ nv s e with
    | error => rw [hs1] at h; simp at h
    | ok s1 =>
      rw [hs1] at h; simp only at h
      have hm := List.mem_cons_self (a := e) (l := r)
      have hz : e.vde = true → findVdeIndex circ e.id = .ok (vdes pre).length := fun hv => by
        apply findVdeIndex_unique hu
        rw [hc, vdes_append, vdes_cons, if_pos hv]
        simp
      obtain ⟨t1, ht1, hr1⟩ := stamp3_rel (hf e hm) hz
        (fun hac id n1 n2 v ic coup h' => hd hac id n1 n2 v ic coup (by rw [← h']; exact hm)) hr hs1
      have hlen : (vdes (pre ++ [e])).length = (vdes pre).length + if e.vde then 1 else 0 := by
        rw [vdes_append, vdes_cons, vdes_nil]
        split_ifs <;> simp
      obtain ⟨t2, ht2, hr2⟩ := ih (pre := pre ++ [e]) (by simp [hc])
        (fun e' h' => hf e' (List.mem_cons_of_mem _ h'))
        (fun hac id n1 n2 v ic coup h' => hd hac id n1 n2 v ic coup (List.mem_cons_of_mem _ h')) hr1 h
      refine ⟨t2, ?_, hr2.size, hr2.N, fun a b => ?_⟩
      · simp only [loop, ht1]; exact ht2
      · rw [hr2.M]; simp only [mutSum, hlen, Nat.add_assoc]; ring

theorem loop1_size {l : List (Elem α)} {s s' : Sys α} (h : loop stamp1 s l = .ok s') :
    s'.size = s.size := by
  induction l generalizing s with
  | nil => simp only [loop, Except.ok.injEq] at h; rw [h]
  | cons e r ih =>
    simp only [loop] at h
    cases hs1 : stamp1 s e with
    | error => rw [hs1] at h; simp at h
    | ok s1 =>
      rw [hs1] at h; simp only at h
      rw [ih h]
      cases e with
      | I id n1 n2 src =>
        simp only [stamp1] at hs1
        by_cases ht : src.timeDep = true
        · simp only [ht, if_true, Except.ok.injEq] at hs1; rw [hs1]
        · simp only [ht, Bool.false_eq_true, if_false] at hs1
          cases hd : src.eval none with
          | none => rw [hd] at hs1; simp at hs1
          | some v => rw [hd] at hs1; simp only [Except.ok.injEq] at hs1; rw [← hs1]
      | _ => simp only [stamp1, Except.ok.injEq] at hs1; rw [← hs1]

theorem capSum_supp {nv : Nat} {l : List (Elem α)} (he : ∀ e ∈ l, NodesLt nv e) (a b : Nat)
    (h : nv ≤ a ∨ nv ≤ b) : capSum l a b = 0 := by
  induction l with
  | nil => rfl
  | cons e r ih =>
    simp only [capSum, ih (fun e' h' => he e' (List.mem_cons_of_mem _ h')), add_zero]
    have h0 := he e (List.mem_cons_self ..)
    cases e with
    | C =>
      simp only [NodesLt] at h0
      simp only [capD, δ]
      rw [if_neg (by omega), if_neg (by omega), if_neg (by omega), if_neg (by omega)]; simp
    | _ => rfl

/-- the whole assembly -/
theorem generate_rel {c : Cfg α} {circ : List (Elem α)} {nv : Nat} {s : Sys α}
    (hn : ∀ e ∈ circ, NodesLt nv e) (hu : UniqueVde circ) (hg : Inverse c circ)
    (hf : ∀ e ∈ circ, Fit c e)
    (hd : c.ac = true → ∀ id n1 n2 v ic coup, Elem.L id n1 n2 v ic coup ∈ circ →
      ∃ row D D', loop (couplings circ nv row id) D coup = .ok D')
    (h : generate circ nv = .ok s) :
    ∃ t, symGenerate c circ nv = .ok t ∧
      Rel c (fun a b => capSum circ a b + selfSum nv circ a b + mutSum circ nv nv circ a b) s t := by
  simp only [generate] at h
  cases h1 : loop stamp1 ⟨nv, fun _ _ => 0, fun _ => 0⟩ circ with
  | error => rw [h1] at h; simp at h
  | ok s1 =>
    rw [h1] at h; simp only at h
    cases h2 : loop (stamp2 circ nv) s1 circ with
    | error => rw [h2] at h; simp at h
    | ok s2 =>
      rw [h2] at h; simp only at h
      obtain ⟨t1, ht1, hr1⟩ := loop1_rel (A := fun _ _ => 0) hg (fun _ h => h) hf
        ⟨rfl, rfl, fun a b => by simp⟩ h1
      have hsz : s1.size = nv := loop1_size h1
      have hsup : Supp s1 := loop1_supp hn ⟨fun _ _ _ => rfl, fun _ _ => rfl⟩ h1
      obtain ⟨t2, ht2, hr2⟩ := loop2_rel hn (by omega) hsup.1 hf
        (fun a b hab => by rw [hsz] at hab; simp [capSum_supp hn a b hab]) hr1 h2
      obtain ⟨t3, ht3, hr3⟩ := loop3_rel (circ := circ) (pre := []) (l := circ) rfl hu hf hd hr2 h
      refine ⟨t3, ?_, hr3.size, hr3.N, fun a b => ?_⟩
      · simp only [symGenerate, ht1, ht2, ht3]
      · rw [hr3.M]
        simp only [vdes_nil, List.length_nil, Nat.add_zero, hsz]; ring

end Verif.Symbolic
