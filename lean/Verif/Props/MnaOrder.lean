import Verif.Props.MnaSrc
import Mathlib.Algebra.BigOperators.Group.List.Basic
import Mathlib.Data.List.Nodup

/-!
Properties C67 (order of elements), C68 (superposition) and the exact conditions under
which the assembly of the MNA system succeeds (part of C07).
-/

namespace Verif.Mna
open Verif.Circuit

variable {α : Type} [Field α]

/-! ### When the assembly succeeds -/

/-- every static independent source has a DC value -/
def DcGiven : Elem α → Prop
  | .V _ _ _ s | .I _ _ _ s => s.timeDep = false → s.dc.isSome
  | _ => True

/-- the controlling branch of a current-controlled source exists -/
def CtrlExists (circ : List (Elem α)) : Elem α → Prop
  | .F _ _ _ src _ | .H _ _ _ src _ => ∃ e ∈ circ, e.vde = true ∧ upper e.id = upper src
  | _ => True

/-- the controlling branch of a CCVS is not after it in the circuit -/
def CtrlBefore (circ : List (Elem α)) : Prop :=
  ∀ pre post id n1 n2 src a, circ = pre ++ .H id n1 n2 src a :: post →
    branchOf circ src ≤ (vdes pre).length

theorem findVdeIndex_isOk (circ : List (Elem α)) (src : String) :
    (∃ k, findVdeIndex circ src = .ok k) ↔ ∃ e ∈ circ, e.vde = true ∧ upper e.id = upper src := by
  cases h : findVdeIndex circ src with
  | ok k =>
    simp only [Except.ok.injEq, exists_eq', true_iff]
    obtain ⟨hb, hlt⟩ := findVdeIndex_branchOf h
    have hf : (vdes circ).findIdx (fun e => upper e.id = upper src) < (vdes circ).length := by
      unfold branchOf at hb; omega
    have hm := List.getElem_mem hf
    refine ⟨_, (List.mem_filter.mp hm).1, (List.mem_filter.mp hm).2, ?_⟩
    simpa using List.findIdx_getElem (w := hf)
  | error x =>
    simp only [reduceCtorEq, exists_false, false_iff]
    rintro ⟨e, hm, hv, hu⟩
    have := (findVdeIndexAux_error.mp h).2
    exact this e (List.mem_filter.mpr ⟨hm, hv⟩) hu

theorem stamp1_isOk (s : Sys α) (e : Elem α) :
    (∃ s', stamp1 s e = .ok s') ↔ (∀ id n1 n2 src, e = .I id n1 n2 src → DcGiven e) := by
  cases e with
  | I id n1 n2 src =>
    simp only [stamp1, DcGiven, Elem.I.injEq, and_imp]
    by_cases ht : src.timeDep = true
    · simp [ht]
    · have hf : src.timeDep = false := by simpa using ht
      rw [if_neg ht, Src.eval_static src none hf]
      cases hd : src.dc <;> simp [hf]
  | R | C | L | K | V | E | G | F | H | NL => simp [stamp1]

theorem loop1_isOk (s : Sys α) (l : List (Elem α)) :
    (∃ s', loop stamp1 s l = .ok s') ↔
      ∀ e ∈ l, ∀ id n1 n2 src, e = .I id n1 n2 src → DcGiven e := by
  induction l generalizing s with
  | nil => simp [loop]
  | cons e t ih =>
    have h1 := stamp1_isOk s e
    simp only [loop, List.forall_mem_cons]
    rw [← h1]
    cases hs : stamp1 s e with
    | ok s1 => simp only [Except.ok.injEq, exists_eq', true_and]; exact ih s1
    | error => simp

/-- what the second loop needs of one element -/
def Ok2 (circ : List (Elem α)) (nv z : Nat) : Elem α → Prop
  | .V _ _ _ s => s.timeDep = false → s.dc.isSome
  | .H _ _ _ src _ => ∃ k, findVdeIndex circ src = .ok k ∧ nv + k < z + 1
  | _ => True

theorem stamp2_isOk (circ : List (Elem α)) (nv : Nat) (s : Sys α) (e : Elem α) :
    ((∃ s', stamp2 circ nv s e = .ok s') ↔ Ok2 circ nv s.size e) ∧
    ∀ s', stamp2 circ nv s e = .ok s' → s'.size = s.size + if e.vde then 1 else 0 := by
  cases e with
  | V id n1 n2 src =>
    simp only [stamp2, Ok2, Elem.vde]
    by_cases ht : src.timeDep = true
    · simp only [ht, if_true]
      exact ⟨by simp, by rintro s' h; simp only [Except.ok.injEq] at h; subst h; rfl⟩
    · have hf : src.timeDep = false := by simpa using ht
      rw [if_neg ht, Src.eval_static src none hf]
      cases hd : src.dc with
      | none => simp [hf]
      | some v => exact ⟨by simp, by rintro s' h; simp only [Except.ok.injEq] at h; subst h; rfl⟩
  | H id n1 n2 src a =>
    simp only [stamp2, Ok2, Elem.vde]
    cases hk : findVdeIndex circ src with
    | error => simp
    | ok k =>
      simp only
      by_cases hlt : nv + k < s.size + 1
      · simp only [hlt, if_true]
        exact ⟨by simp [hlt], by rintro s' h; simp only [Except.ok.injEq] at h; subst h; rfl⟩
      · simp [hlt]
  | E | L =>
    simp only [stamp2, Ok2, Elem.vde]
    exact ⟨by simp, by rintro s' h; simp only [Except.ok.injEq] at h; subst h; rfl⟩
  | R | C | K | I | G | F | NL =>
    simp only [stamp2, Ok2, Elem.vde]
    exact ⟨by simp, by rintro s' h; simp only [Except.ok.injEq] at h; subst h; rfl⟩

theorem loop2_isOk (circ : List (Elem α)) (nv : Nat) (s : Sys α) (l : List (Elem α)) :
    (∃ s', loop (stamp2 circ nv) s l = .ok s') ↔
      ∀ pre e post, l = pre ++ e :: post → Ok2 circ nv (s.size + (vdes pre).length) e := by
  induction l generalizing s with
  | nil => simp [loop]
  | cons e t ih =>
    obtain ⟨h1, h2⟩ := stamp2_isOk circ nv s e
    simp only [loop]
    cases hs : stamp2 circ nv s e with
    | ok s1 =>
      have hz := h2 s1 hs
      simp only
      rw [ih s1, hz]
      constructor
      · intro h pre e' post heq
        cases pre with
        | nil =>
          simp only [List.nil_append, List.cons.injEq] at heq
          obtain ⟨rfl, -⟩ := heq
          simpa [vdes_nil] using h1.mp ⟨s1, hs⟩
        | cons a pre =>
          simp only [List.cons_append, List.cons.injEq] at heq
          obtain ⟨rfl, heq⟩ := heq
          have := h pre e' post heq
          rw [vdes_cons_length]
          rwa [← Nat.add_assoc]
      · intro h pre e' post heq
        have := h (e :: pre) e' post (by simp [heq])
        rw [vdes_cons_length] at this
        rwa [Nat.add_assoc]
    | error =>
      simp only [reduceCtorEq, exists_false, false_iff]
      intro h
      have := h [] e t rfl
      simp only [vdes_nil, List.length_nil, Nat.add_zero] at this
      obtain ⟨s', hs'⟩ := h1.mpr this
      rw [hs] at hs'; simp at hs'

theorem loop3_isOk (circ : List (Elem α)) (nv : Nat) (s : Sys α) (l : List (Elem α)) :
    (∃ s', loop (stamp3 circ nv) s l = .ok s') ↔
      ∀ e ∈ l, ∀ id n1 n2 src a, e = .F id n1 n2 src a → CtrlExists circ e := by
  induction l generalizing s with
  | nil => simp [loop]
  | cons e t ih =>
    simp only [loop, List.forall_mem_cons]
    cases e with
    | F id n1 n2 src a =>
      have hx := findVdeIndex_isOk circ src
      simp only [stamp3, CtrlExists]
      rw [← hx]
      cases hk : findVdeIndex circ src with
      | error => simp
      | ok k =>
        simp only [Except.ok.injEq, exists_eq', implies_true, true_and]
        exact ih _
    | R | C | L | K | V | E | G | I | H | NL =>
      simp only [stamp3, reduceCtorEq, false_implies, implies_true, true_and]
      exact ih s

/-- C07: the assembly raises no exception exactly when every static source has a DC value,
every current-controlled source names an existing voltage-defined element, and no
current-controlled voltage source precedes its controlling branch. -/
theorem C07_assembly_succeeds_iff (circ : List (Elem α)) (nv : Nat) :
    (∃ s, generate circ nv = .ok s) ↔
      (∀ e ∈ circ, DcGiven e) ∧ (∀ e ∈ circ, CtrlExists circ e) ∧ CtrlBefore circ := by
  have l1 := loop1_isOk (⟨nv, fun _ _ => 0, fun _ => 0⟩ : Sys α) circ
  unfold generate
  cases h1 : loop stamp1 (⟨nv, fun _ _ => 0, fun _ => 0⟩ : Sys α) circ with
  | error =>
    rw [h1] at l1
    simp only [reduceCtorEq, exists_false, false_iff] at l1 ⊢
    rintro ⟨hd, -, -⟩
    exact l1 (fun e he _ _ _ _ _ => hd e he)
  | ok s1 =>
    rw [h1] at l1
    simp only [Except.ok.injEq, exists_eq', true_iff] at l1
    have hz1 : s1.size = nv := by
      clear l1
      have : ∀ (l : List (Elem α)) (s s' : Sys α), loop stamp1 s l = .ok s' → s'.size = s.size := by
        intro l
        induction l with
        | nil => intro s s' h; simp only [loop, Except.ok.injEq] at h; rw [h]
        | cons e t ih =>
          intro s s' h
          simp only [loop] at h
          cases hs : stamp1 s e with
          | error => rw [hs] at h; simp at h
          | ok s2 =>
            rw [hs] at h
            rw [ih s2 s' h]
            cases e with
            | I id n1 n2 src =>
              simp only [stamp1] at hs
              split at hs
              · simp only [Except.ok.injEq] at hs; rw [hs]
              · split at hs
                · simp only [Except.ok.injEq] at hs; rw [← hs]
                · simp at hs
            | R | C | L | K | V | E | G | F | H | NL =>
              simp only [stamp1, Except.ok.injEq] at hs; rw [← hs]
      exact this circ _ s1 h1
    have l2 := loop2_isOk circ nv s1 circ
    rw [hz1] at l2
    have hsplit : (∀ pre e post, circ = pre ++ e :: post → Ok2 circ nv (nv + (vdes pre).length) e) ↔
        (∀ e ∈ circ, ∀ id n1 n2 src, e = .V id n1 n2 src → DcGiven e) ∧
        (∀ e ∈ circ, ∀ id n1 n2 src a, e = .H id n1 n2 src a → CtrlExists circ e) ∧
        CtrlBefore circ := by
      constructor
      · intro h
        refine ⟨?_, ?_, ?_⟩
        · intro e he id n1 n2 src heq
          obtain ⟨pre, post, hc⟩ := List.append_of_mem he
          have := h pre e post hc
          subst heq; exact this
        · intro e he id n1 n2 src a heq
          obtain ⟨pre, post, hc⟩ := List.append_of_mem he
          have := h pre e post hc
          subst heq
          obtain ⟨k, hk, -⟩ := this
          exact (findVdeIndex_isOk circ src).mp ⟨k, hk⟩
        · intro pre post id n1 n2 src a hc
          obtain ⟨k, hk, hlt⟩ := h pre _ post hc
          rw [← (findVdeIndex_branchOf hk).1]; omega
      · rintro ⟨hv, hh, hb⟩ pre e post hc
        have hm : e ∈ circ := by rw [hc]; simp
        cases e with
        | V id n1 n2 src => exact hv _ hm _ _ _ _ rfl
        | H id n1 n2 src a =>
          obtain ⟨k, hk⟩ := (findVdeIndex_isOk circ src).mpr (hh _ hm _ _ _ _ _ rfl)
          have := hb pre post _ _ _ _ _ hc
          rw [← (findVdeIndex_branchOf hk).1] at this
          exact ⟨k, hk, by omega⟩
        | R | C | L | K | I | E | G | F | NL => trivial
    rw [hsplit] at l2
    have hall : ((∀ e ∈ circ, DcGiven e) ∧ (∀ e ∈ circ, CtrlExists circ e) ∧ CtrlBefore circ) ↔
        ((∀ e ∈ circ, ∀ id n1 n2 src, e = .V id n1 n2 src → DcGiven e) ∧
        (∀ e ∈ circ, ∀ id n1 n2 src a, e = .H id n1 n2 src a → CtrlExists circ e) ∧
        CtrlBefore circ) ∧
        (∀ e ∈ circ, ∀ id n1 n2 src a, e = .F id n1 n2 src a → CtrlExists circ e) := by
      constructor
      · rintro ⟨a, b, c⟩
        exact ⟨⟨fun e he _ _ _ _ _ => a e he, fun e he _ _ _ _ _ _ => b e he, c⟩,
          fun e he _ _ _ _ _ _ => b e he⟩
      · rintro ⟨⟨a, b, c⟩, d⟩
        refine ⟨fun e he => ?_, fun e he => ?_, c⟩
        · cases e with
          | V => exact a _ he _ _ _ _ rfl
          | I => exact l1 _ he _ _ _ _ rfl
          | R | C | L | K | E | G | F | H | NL => trivial
        · cases e with
          | H => exact b _ he _ _ _ _ _ rfl
          | F => exact d _ he _ _ _ _ _ rfl
          | R | C | L | K | E | G | I | V | NL => trivial
    rw [hall, ← l2]
    simp only
    cases h2 : loop (stamp2 circ nv) s1 circ with
    | error => simp
    | ok s2 =>
      simp only [Except.ok.injEq, exists_eq', true_and]
      exact loop3_isOk circ nv s2 circ

/-! ### C67: order of elements -/

/-- voltage-defined elements are told apart by their names -/
def UniqueVde (circ : List (Elem α)) : Prop := ((vdes circ).map (fun e => upper e.id)).Nodup

theorem branchOf_eq {circ : List (Elem α)} (hu : UniqueVde circ) {k : Nat} {e : Elem α}
    (h : (vdes circ)[k]? = some e) : branchOf circ e.id = k := by
  obtain ⟨hk, rfl⟩ := List.getElem?_eq_some_iff.mp h
  unfold branchOf
  rw [List.findIdx_eq hk]
  refine ⟨by simp, fun j hj => ?_⟩
  simp only [decide_eq_false_iff_not]
  intro heq
  have hj' : j < (vdes circ).length := by omega
  have h2 : ((vdes circ).map (fun e => upper e.id))[j]'(by simpa using hj') =
      ((vdes circ).map (fun e => upper e.id))[k]'(by simpa using hk) := by simpa using heq
  have := (hu.getElem_inj_iff).mp h2
  omega

/-- current of an element, branch number found by name -/
def currentN (circ : List (Elem α)) (nv : Nat) (x : Vec α) (val : Src α → α) (e : Elem α) : α :=
  current circ nv x val (branchOf circ e.id) e

theorem kcl_eq_sum {circ : List (Elem α)} (hu : UniqueVde circ) (nv : Nat) (x : Vec α)
    (val : Src α → α) (r : Nat) :
    kcl circ nv x val circ 0 r =
      (circ.map (fun e => inj (term e).1 (term e).2 (currentN circ nv x val e) r)).sum := by
  have key : ∀ (l : List (Elem α)) (k : Nat),
      (∀ j, (vdes l)[j]? = (vdes circ)[k + j]?) →
      kcl circ nv x val l k r =
        (l.map (fun e => inj (term e).1 (term e).2 (currentN circ nv x val e) r)).sum := by
    intro l
    induction l with
    | nil => intros; rfl
    | cons e t ih =>
      intro k hk
      simp only [kcl, List.map_cons, List.sum_cons]
      by_cases hv : e.vde = true
      · have h0 := hk 0
        rw [vdes_cons] at h0
        simp only [hv, if_true, List.getElem?_cons_zero, Nat.add_zero] at h0
        rw [ih]
        · rw [currentN, branchOf_eq hu h0.symm]
        · intro j
          have := hk (j + 1)
          rw [vdes_cons] at this
          simp only [hv, if_true, List.getElem?_cons_succ] at this ⊢
          rw [this]; congr 1; omega
      · rw [ih]
        · congr 2
          cases e <;> simp [Elem.vde] at hv <;> simp [currentN, current]
        · intro j
          have := hk j
          rw [vdes_cons] at this
          simpa [hv] using this
  exact key circ 0 (fun j => by rw [Nat.zero_add])

/-- `x'` is `x` with the branch currents listed in the order of `circ'` -/
def Renumbered (circ circ' : List (Elem α)) (nv : Nat) (x x' : Vec α) : Prop :=
  (∀ r, r < nv → x' r = x r) ∧
  ∀ k k' e, (vdes circ)[k]? = some e → (vdes circ')[k']? = some e → x' (nv + k') = x (nv + k)

theorem vdes_perm {circ circ' : List (Elem α)} (h : circ.Perm circ') :
    (vdes circ).Perm (vdes circ') := h.filter _

theorem UniqueVde.perm {circ circ' : List (Elem α)} (h : circ.Perm circ') (hu : UniqueVde circ) :
    UniqueVde circ' := ((vdes_perm h).map _).nodup_iff.mp hu

theorem Renumbered.branch {circ circ' : List (Elem α)} {nv : Nat} {x x' : Vec α}
    (h : circ.Perm circ') (hu : UniqueVde circ) (hx : Renumbered circ circ' nv x x')
    {src : String} (hs : ∃ e ∈ circ, e.vde = true ∧ upper e.id = upper src) :
    x' (nv + branchOf circ' src) = x (nv + branchOf circ src) := by
  obtain ⟨e, hm, hv, he⟩ := hs
  have hb : ∀ c : List (Elem α), branchOf c src = branchOf c e.id := by
    intro c; unfold branchOf; rw [he]
  rw [hb, hb]
  have m1 : e ∈ vdes circ := List.mem_filter.mpr ⟨hm, hv⟩
  have m2 : e ∈ vdes circ' := (vdes_perm h).mem_iff.mp m1
  obtain ⟨k, hk⟩ := List.mem_iff_getElem?.mp m1
  obtain ⟨k', hk'⟩ := List.mem_iff_getElem?.mp m2
  rw [branchOf_eq hu hk, branchOf_eq (hu.perm h) hk']
  exact hx.2 k k' e hk hk'

theorem currentN_perm {circ circ' : List (Elem α)} {nv : Nat} {x x' : Vec α}
    (h : circ.Perm circ') (hu : UniqueVde circ) (hx : Renumbered circ circ' nv x x')
    (hc : ∀ e ∈ circ, CtrlExists circ e) (he : ∀ e ∈ circ, NodesLt nv e) (val : Src α → α)
    {e : Elem α} (hm : e ∈ circ) : currentN circ' nv x' val e = currentN circ nv x val e := by
  have hn := he e hm
  have hce := hc e hm
  have hb : e.vde = true → x' (nv + branchOf circ' e.id) = x (nv + branchOf circ e.id) :=
    fun hv => hx.branch h hu ⟨e, hm, hv, rfl⟩
  cases e <;> simp only [NodesLt] at hn <;> simp only [currentN, current]
  case R => rw [hx.1 _ hn.1, hx.1 _ hn.2]
  case G => rw [hx.1 _ hn.2.2.1, hx.1 _ hn.2.2.2]
  case F => rw [hx.branch h hu hce]
  all_goals exact hb rfl

theorem lawCoded_perm {circ circ' : List (Elem α)} {nv : Nat} {x x' : Vec α}
    (h : circ.Perm circ') (hu : UniqueVde circ) (hx : Renumbered circ circ' nv x x')
    (hc : ∀ e ∈ circ, CtrlExists circ e) (he : ∀ e ∈ circ, NodesLt nv e)
    {e : Elem α} (hm : e ∈ circ) : lawCoded circ' nv x' e = lawCoded circ nv x e := by
  have hn := he e hm
  have hce := hc e hm
  cases e <;> simp only [NodesLt] at hn <;> simp only [lawCoded]
  case V => rw [hx.1 _ hn.1, hx.1 _ hn.2]
  case L => rw [hx.1 _ hn.1, hx.1 _ hn.2]
  case E => rw [hx.1 _ hn.1, hx.1 _ hn.2.1, hx.1 _ hn.2.2.1, hx.1 _ hn.2.2.2]
  case H => rw [hx.1 _ hn.1, hx.1 _ hn.2, hx.branch h hu hce]

theorem generate_branch {nv : Nat} {circ : List (Elem α)} {s : Sys α}
    (he : ∀ e ∈ circ, NodesLt nv e) (hp : ∀ e ∈ circ, Proper e)
    (h : generate circ nv = .ok s) (x : Vec α) (k : Nat) (e : Elem α)
    (hk : (vdes circ)[k]? = some e) :
    mulVec s.size s.M x (nv + k) + s.N (nv + k) = lawCoded circ nv x e := by
  obtain ⟨-, hr⟩ := generate_row x he hp h
  rw [hr, c2sum_branch x (le_refl _) he hk,
    sum_zero_of _ _ (fun e' h' => c1_high x (he e' h') _ (by omega)),
    sum_zero_of _ _ (fun e' h' => c3_high x (he e' h') _ (by omega))]
  ring

/-- C67: listing the elements in another order only renumbers the branch currents: with the
unknowns renumbered accordingly, every node equation and the equation of every
voltage-defined element has the same value, so both orders have the same solutions.
(Whenever both orders can be assembled, see `C07_assembly_succeeds_iff`.) -/
theorem C67_order_renumbers_branches {nv : Nat} {circ circ' : List (Elem α)} {s s' : Sys α}
    (hperm : circ.Perm circ') (hu : UniqueVde circ)
    (he : ∀ e ∈ circ, NodesLt nv e) (hp : ∀ e ∈ circ, Proper e)
    (h : generate circ nv = .ok s) (h' : generate circ' nv = .ok s')
    (x x' : Vec α) (hx : Renumbered circ circ' nv x x') :
    s'.size = s.size ∧
    (∀ r, r < nv → mulVec s'.size s'.M x' r + s'.N r = mulVec s.size s.M x r + s.N r) ∧
    (∀ k k' e, (vdes circ)[k]? = some e → (vdes circ')[k']? = some e →
      mulVec s'.size s'.M x' (nv + k') + s'.N (nv + k') =
        mulVec s.size s.M x (nv + k) + s.N (nv + k)) := by
  have he' : ∀ e ∈ circ', NodesLt nv e := fun e hm => he e (hperm.mem_iff.mpr hm)
  have hp' : ∀ e ∈ circ', Proper e := fun e hm => hp e (hperm.mem_iff.mpr hm)
  obtain ⟨-, hc, -⟩ := (C07_assembly_succeeds_iff circ nv).mp ⟨s, h⟩
  refine ⟨?_, fun r hr => ?_, fun k k' e hk hk' => ?_⟩
  · rw [(generate_row x he hp h).1, (generate_row x' he' hp' h').1, (vdes_perm hperm).length_eq]
  · rw [C07_node_rows he hp h x r hr, C07_node_rows he' hp' h' x' r hr, kcl_eq_sum hu,
      kcl_eq_sum (hu.perm hperm), ← (hperm.map _).sum_eq]
    congr 1
    apply List.map_congr_left
    intro e hm
    rw [currentN_perm hperm hu hx hc he _ hm]
  · have hm : e ∈ circ := (List.mem_filter.mp (List.mem_of_getElem? hk)).1
    rw [generate_branch he hp h x k e hk, generate_branch he' hp' h' x' k' e hk',
      lawCoded_perm hperm hu hx hc he hm]

theorem entries_eq {S : Nat} {M M' : Mat α} {N N' : Vec α} {r : Nat}
    (h : ∀ x : Vec α, mulVec S M x r + N r = mulVec S M' x r + N' r) :
    N r = N' r ∧ ∀ c, c < S → M r c = M' r c := by
  have h0 := h (fun _ => 0)
  simp only [mulVec, mul_zero, Finset.sum_const_zero, zero_add] at h0
  refine ⟨h0, fun c hc => ?_⟩
  have h1 := h (fun j => if j = c then 1 else 0)
  simp only [mulVec, mul_ite, mul_one, mul_zero, Finset.sum_ite_eq', Finset.mem_range, hc,
    if_true, h0] at h1
  exact add_right_cancel h1

/-- C67: moving around elements that are not voltage-defined (the voltage-defined ones stay
in the same order) leaves every entry of the matrix and of the constant vector unchanged. -/
theorem C67_same_system {nv : Nat} {circ circ' : List (Elem α)} {s s' : Sys α}
    (hperm : circ.Perm circ') (hu : UniqueVde circ) (hv : vdes circ = vdes circ')
    (he : ∀ e ∈ circ, NodesLt nv e) (hp : ∀ e ∈ circ, Proper e)
    (h : generate circ nv = .ok s) (h' : generate circ' nv = .ok s') :
    s'.size = s.size ∧ (∀ r, r < s.size → s'.N r = s.N r) ∧
      ∀ r c, r < s.size → c < s.size → s'.M r c = s.M r c := by
  have hx : ∀ x, Renumbered circ circ' nv x x := by
    intro x
    refine ⟨fun _ _ => rfl, fun k k' e hk hk' => ?_⟩
    rw [← branchOf_eq hu hk]
    rw [← hv] at hk'
    rw [← branchOf_eq hu hk']
  have hz := (C67_order_renumbers_branches hperm hu he hp h h' (fun _ => 0) _ (hx _)).1
  have hsize := (generate_row (fun _ => 0) he hp h).1
  have hrow : ∀ r, r < s.size → ∀ x,
      mulVec s.size s'.M x r + s'.N r = mulVec s.size s.M x r + s.N r := by
    intro r hr x
    obtain ⟨-, a, b⟩ := C67_order_renumbers_branches hperm hu he hp h h' x x (hx x)
    rw [hz] at a b
    by_cases hlt : r < nv
    · exact a r hlt
    · have hk : r - nv < (vdes circ).length := by omega
      have := b (r - nv) (r - nv) _ (List.getElem?_eq_getElem hk)
        (by rw [← hv]; exact List.getElem?_eq_getElem hk)
      rwa [show nv + (r - nv) = r by omega] at this
  exact ⟨hz, fun r hr => (entries_eq (hrow r hr)).1, fun r c hr hc => (entries_eq (hrow r hr)).2 c hc⟩

/-- two orders of one circuit -/
def orderA : List (Elem ℚ) :=
  [.R "R1" 1 0 2, .V "V1" 1 0 { dc := some 4 }, .L "L1" 1 2 1 none [], .F "F1" 2 0 "v1" 3]
def orderB : List (Elem ℚ) :=
  [.F "F1" 2 0 "v1" 3, .V "V1" 1 0 { dc := some 4 }, .R "R1" 1 0 2, .L "L1" 1 2 1 none []]
def orderC : List (Elem ℚ) :=
  [.L "L1" 1 2 1 none [], .F "F1" 2 0 "v1" 3, .V "V1" 1 0 { dc := some 4 }, .R "R1" 1 0 2]

instance : DecidablePred (UniqueVde : List (Elem ℚ) → Prop) := fun c => by
  unfold UniqueVde; infer_instance

example : orderA.Perm orderB ∧ vdes orderA = vdes orderB := by
  refine ⟨?_, rfl⟩
  simp only [orderA, orderB]
  refine List.Perm.trans ?_ (List.perm_middle (l₁ := [_, _, _]) (l₂ := []))
  refine List.Perm.trans ?_ (List.Perm.swap ..)
  exact List.Perm.refl _

example : UniqueVde orderA := by decide +kernel
example : (∀ e ∈ orderA, NodesLt 3 e) ∧ ∀ e ∈ orderA, Proper e := by
  simp [orderA, NodesLt, Proper]
example : (generate orderA 3).toOption.isSome ∧ (generate orderB 3).toOption.isSome ∧
    (generate orderC 3).toOption.isSome := by decide +kernel

/-- C67 is refuted in one respect: whether the circuit can be solved at all depends on the
order, because a current-controlled voltage source listed before its controlling branch
makes the assembly raise `IndexError`. -/
theorem C67_ccvs_order_refuted :
    ∃ circ circ' : List (Elem ℚ), circ.Perm circ' ∧ UniqueVde circ ∧
      (∀ e ∈ circ, NodesLt 3 e ∧ Proper e) ∧
      (∃ s, generate circ 3 = .ok s) ∧ generate circ' 3 = .error .index := by
  refine ⟨[.V "V1" 1 0 { dc := some 4 }, .H "H1" 2 0 "V1" 3],
    [.H "H1" 2 0 "V1" 3, .V "V1" 1 0 { dc := some 4 }], List.Perm.swap .., by decide +kernel,
    by simp [NodesLt, Proper], ⟨_, rfl⟩, ?_⟩
  have : (match generate ([.H "H1" 2 0 "V1" 3, .V "V1" 1 0 { dc := some 4 }] : List (Elem ℚ)) 3 with
    | .error .index => true
    | _ => false) = true := by decide +kernel
  revert this
  cases generate ([.H "H1" 2 0 "V1" 3, .V "V1" 1 0 { dc := some 4 }] : List (Elem ℚ)) 3 with
  | ok => simp
  | error e => cases e <;> simp

/-! ### C68: superposition -/

/-- an element with the DC value of an independent source given by `d` -/
def setDc (d : String → α) : Elem α → Elem α
  | .V id n1 n2 s => .V id n1 n2 { s with dc := some (d id) }
  | .I id n1 n2 s => .I id n1 n2 { s with dc := some (d id) }
  | e => e

/-- the circuit with the DC values of its independent sources given by `d` -/
def withDc (d : String → α) (circ : List (Elem α)) : List (Elem α) := circ.map (setDc d)

theorem setDc_vde (d : String → α) (e : Elem α) : (setDc d e).vde = e.vde := by cases e <;> rfl

theorem setDc_id (d : String → α) (e : Elem α) : (setDc d e).id = e.id := by cases e <;> rfl

theorem withDc_vdes_ids (d : String → α) (circ : List (Elem α)) :
    (vdes (withDc d circ)).map Elem.id = (vdes circ).map Elem.id := by
  induction circ with
  | nil => rfl
  | cons e t ih =>
    simp only [withDc, List.map_cons] at ih ⊢
    rw [vdes_cons, vdes_cons, setDc_vde]
    split
    · simp [setDc_id, ih]
    · exact ih

theorem withDc_branchOf (d : String → α) (circ : List (Elem α)) (src : String) :
    branchOf (withDc d circ) src = branchOf circ src := by
  have h : ∀ c : List (Elem α), branchOf c src =
      ((vdes c).map Elem.id).findIdx (fun i => upper i = upper src) := by
    intro c; unfold branchOf; rw [List.findIdx_map]; rfl
  rw [h, h, withDc_vdes_ids]

theorem withDc_vdes_length (d : String → α) (circ : List (Elem α)) :
    (vdes (withDc d circ)).length = (vdes circ).length := by
  have := congrArg List.length (withDc_vdes_ids d circ)
  simpa using this

theorem withDc_nodes {nv : Nat} {circ : List (Elem α)} (d : String → α)
    (h : ∀ e ∈ circ, NodesLt nv e) : ∀ e ∈ withDc d circ, NodesLt nv e := by
  intro e he
  obtain ⟨a, ha, rfl⟩ := List.mem_map.mp he
  have := h a ha
  cases a <;> exact this

theorem withDc_proper {circ : List (Elem α)} (d : String → α)
    (h : ∀ e ∈ circ, Proper e) : ∀ e ∈ withDc d circ, Proper e := by
  intro e he
  obtain ⟨a, ha, rfl⟩ := List.mem_map.mp he
  have := h a ha
  cases a <;> exact this

theorem inj_lin (n1 n2 : Nat) (a b i j : α) (r : Nat) :
    inj n1 n2 (a * i + b * j) r = a * inj n1 n2 i r + b * inj n1 n2 j r := by
  simp only [inj]; split_ifs <;> ring

theorem c1_lin (x y : Vec α) (d f : String → α) (a b : α) (e : Elem α) (r : Nat) :
    c1 (fun j => a * x j + b * y j) (setDc (fun i => a * d i + b * f i) e) r =
      a * c1 x (setDc d e) r + b * c1 y (setDc f e) r := by
  cases e <;> simp only [setDc, c1, ← inj_lin]
  case R => congr 1; ring
  case G => congr 1; ring
  case I => congr 1; split_ifs <;> simp
  all_goals ring

theorem c3_lin (circ : List (Elem α)) (nv : Nat) (x y : Vec α) (d f : String → α) (a b : α)
    (e : Elem α) (r : Nat) :
    c3 (withDc (fun i => a * d i + b * f i) circ) nv (fun j => a * x j + b * y j)
      (setDc (fun i => a * d i + b * f i) e) r =
      a * c3 (withDc d circ) nv x (setDc d e) r + b * c3 (withDc f circ) nv y (setDc f e) r := by
  cases e <;> simp only [setDc, c3, ← inj_lin, withDc_branchOf]
  case F => congr 1; ring
  all_goals ring

theorem lawCoded_lin (circ : List (Elem α)) (nv : Nat) (x y : Vec α) (d f : String → α) (a b : α)
    (e : Elem α) :
    lawCoded (withDc (fun i => a * d i + b * f i) circ) nv (fun j => a * x j + b * y j)
      (setDc (fun i => a * d i + b * f i) e) =
      a * lawCoded (withDc d circ) nv x (setDc d e) + b * lawCoded (withDc f circ) nv y (setDc f e) := by
  cases e <;> simp only [setDc, lawCoded, withDc_branchOf, Option.getD_some]
  case V => split_ifs <;> ring
  case E => split_ifs <;> ring
  all_goals ring

theorem c2_lin (circ : List (Elem α)) (nv : Nat) (x y : Vec α) (d f : String → α) (a b : α)
    (e : Elem α) (z r : Nat) :
    c2 (withDc (fun i => a * d i + b * f i) circ) nv (fun j => a * x j + b * y j) z
      (setDc (fun i => a * d i + b * f i) e) r =
      a * c2 (withDc d circ) nv x z (setDc d e) r + b * c2 (withDc f circ) nv y z (setDc f e) r := by
  have ht : ∀ g : String → α, term (setDc g e) = term e := by intro g; cases e <;> rfl
  unfold c2
  simp only [setDc_vde, ht, lawCoded_lin, inj_lin]
  split_ifs <;> ring

/-- the value of equation `r` as a function of unknowns and sources -/
def eqn (circ : List (Elem α)) (nv : Nat) (x : Vec α) (d : String → α) (r : Nat) : α :=
  ((withDc d circ).map (fun e => c1 x e r)).sum +
    c2sum (withDc d circ) nv x (withDc d circ) nv r +
    ((withDc d circ).map (fun e => c3 (withDc d circ) nv x e r)).sum

theorem sum_lin {ι : Type} (l : List ι) (F G H : ι → α) (a b : α)
    (h : ∀ e, F e = a * G e + b * H e) :
    (l.map F).sum = a * (l.map G).sum + b * (l.map H).sum := by
  induction l with
  | nil => simp
  | cons e t ih => simp only [List.map_cons, List.sum_cons, ih, h]; ring

theorem eqn_linear (circ : List (Elem α)) (nv : Nat) (x y : Vec α) (d f : String → α) (a b : α)
    (r : Nat) :
    eqn circ nv (fun j => a * x j + b * y j) (fun i => a * d i + b * f i) r =
      a * eqn circ nv x d r + b * eqn circ nv y f r := by
  have h2 : ∀ (l : List (Elem α)) (z : Nat),
      c2sum (withDc (fun i => a * d i + b * f i) circ) nv (fun j => a * x j + b * y j)
        (l.map (setDc (fun i => a * d i + b * f i))) z r =
        a * c2sum (withDc d circ) nv x (l.map (setDc d)) z r +
        b * c2sum (withDc f circ) nv y (l.map (setDc f)) z r := by
    intro l
    induction l with
    | nil => intro z; simp [c2sum]
    | cons e t ih =>
      intro z
      simp only [List.map_cons, c2sum, setDc_vde, ih, c2_lin]
      ring
  have h2' := h2 circ nv
  have h1 := sum_lin circ _ _ _ a b (fun e => c1_lin x y d f a b e r)
  have h3 := sum_lin circ _ _ _ a b (fun e => c3_lin circ nv x y d f a b e r)
  unfold eqn
  simp only [withDc, List.map_map, Function.comp_def] at h1 h2' h3 ⊢
  rw [h1, h2', h3]
  ring

/-- C68: for any circuit and any two assignments of source values, the assembled matrices
coincide and if `x` solves the equations for sources `d` and `y` for sources `f`, then
`a*x + b*y` solves them for sources `a*d + b*f`. -/
theorem C68_superposition {nv : Nat} {circ : List (Elem α)} {d f : String → α} {a b : α}
    {s1 s2 s3 : Sys α}
    (he : ∀ e ∈ circ, NodesLt nv e) (hp : ∀ e ∈ circ, Proper e)
    (h1 : generate (withDc d circ) nv = .ok s1) (h2 : generate (withDc f circ) nv = .ok s2)
    (h3 : generate (withDc (fun i => a * d i + b * f i) circ) nv = .ok s3)
    (x y : Vec α) (r : Nat) :
    mulVec s3.size s3.M (fun j => a * x j + b * y j) r + s3.N r =
      a * (mulVec s1.size s1.M x r + s1.N r) + b * (mulVec s2.size s2.M y r + s2.N r) := by
  rw [(generate_row _ (withDc_nodes _ he) (withDc_proper _ hp) h1).2,
    (generate_row _ (withDc_nodes _ he) (withDc_proper _ hp) h2).2,
    (generate_row _ (withDc_nodes _ he) (withDc_proper _ hp) h3).2]
  exact eqn_linear circ nv x y d f a b r

/-- C68: the operating point itself superposes: if the reduced system of the combined
sources has at most one solution (reference at zero), that solution is the combination of
the solutions for the two source sets. -/
theorem C68_operating_point {nv : Nat} {circ : List (Elem α)} {d f : String → α} {a b : α}
    {s1 s2 s3 : Sys α}
    (he : ∀ e ∈ circ, NodesLt nv e) (hp : ∀ e ∈ circ, Proper e)
    (h1 : generate (withDc d circ) nv = .ok s1) (h2 : generate (withDc f circ) nv = .ok s2)
    (h3 : generate (withDc (fun i => a * d i + b * f i) circ) nv = .ok s3)
    (sol : Sys α → Vec α → Prop)
    (hsol : ∀ s x, sol s x ↔ x 0 = 0 ∧ ∀ r, 1 ≤ r → r < s.size → mulVec s.size s.M x r + s.N r = 0)
    {x y z : Vec α} (hx : sol s1 x) (hy : sol s2 y) (hz : sol s3 z)
    (huniq : ∀ u v, sol s3 u → sol s3 v → ∀ j, j < s3.size → u j = v j)
    (j : Nat) (hj : j < s3.size) : z j = a * x j + b * y j := by
  have z1 := (generate_row x (withDc_nodes _ he) (withDc_proper _ hp) h1).1
  have z2 := (generate_row x (withDc_nodes _ he) (withDc_proper _ hp) h2).1
  have z3 := (generate_row x (withDc_nodes _ he) (withDc_proper _ hp) h3).1
  rw [withDc_vdes_length] at z1 z2 z3
  refine huniq z (fun j => a * x j + b * y j) hz ?_ j hj
  rw [hsol] at hx hy ⊢
  refine ⟨by rw [hx.1, hy.1]; ring, fun r h1r hr => ?_⟩
  rw [C68_superposition he hp h1 h2 h3 x y r, hx.2 r h1r (by omega), hy.2 r h1r (by omega)]
  ring

/-- a circuit with a source of each kind and a controlled source -/
def superDemo : List (Elem ℚ) :=
  [.V "V1" 1 0 { dc := some 0 }, .R "R1" 1 2 2, .I "I1" 2 0 { dc := some 0 }, .R "R2" 2 0 3,
   .F "F1" 2 0 "V1" 1]

example : (generate (withDc (fun _ => 5) superDemo) 3).toOption.isSome ∧
    (generate (withDc (fun _ => 7) superDemo) 3).toOption.isSome := by decide +kernel
example : (∀ e ∈ superDemo, NodesLt 3 e) ∧ ∀ e ∈ superDemo, Proper e := by
  simp [superDemo, NodesLt, Proper]

end Verif.Mna
