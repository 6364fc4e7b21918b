import Verif.Model.Stamp
import Mathlib.Algebra.BigOperators.Group.List.Basic
import Mathlib.Data.List.Zip
import Mathlib.Data.List.Nodup
import Mathlib.Tactic.Ring
import Mathlib.Tactic.NormNum
import Mathlib.Tactic.Linarith

/-!
Property C45: adding a device stamp to the Jacobian.
-/

namespace Verif.Stamp

variable {K : Type} [Field K]

/-- The full stamp of a device with the terminals `ns`, summed over all pairs of terminals connected to
the nodes `r` and `c`. -/
def fullEntry (ns : List ℕ) (stamp : List (List K)) (r c : ℕ) : K :=
  ((ns.zip stamp).map fun p =>
    ((ns.zip p.2).map fun e => if p.1 = r ∧ e.1 = c then e.2 else 0).sum).sum

/-! ### Auxiliary -/

theorem npDelete_zipIdx {α : Type} (ns : List ℕ) (l : List α) (h : l.length = ns.length) (k : ℕ)
    (pos : List ℕ)
    (hp : ∀ i (hi : i < ns.length), (k + i) ∈ pos ↔ ns[i] = 0) :
    ((l.zipIdx k).filter fun p => decide (p.2 ∉ pos)).map (·.1) =
      ((ns.zip l).filter fun p => decide (p.1 ≠ 0)).map (·.2) := by
  induction ns generalizing l k with
  | nil =>
    have : l = [] := List.length_eq_zero_iff.1 h
    subst this; rfl
  | cons n ns ih =>
    cases l with
    | nil => simp at h
    | cons x l =>
      have h0 := hp 0 (by simp)
      simp only [Nat.add_zero, List.getElem_cons_zero] at h0
      have ih' := ih l (by simpa using h) (k + 1) (by
        intro i hi
        have := hp (i + 1) (by simpa using hi)
        simp only [List.getElem_cons_succ] at this
        rw [← this]
        rw [show k + (i + 1) = k + 1 + i by omega])
      simp only [List.zipIdx_cons, List.zip_cons_cons, List.filter_cons]
      by_cases hn : n = 0
      · have : k ∈ pos := h0.2 hn
        simp only [this, hn, not_true_eq_false, decide_false, ne_eq, Bool.false_eq_true, if_false]
        simpa using ih'
      · have : k ∉ pos := fun hh => hn (h0.1 hh)
        simp only [this, hn, not_false_eq_true, decide_true, ne_eq, if_true, List.map_cons]
        rw [List.cons_inj_right]
        simpa using ih'

theorem mem_zap (ns : List ℕ) (i : ℕ) (hi : i < ns.length) : i ∈ zap ns ↔ ns[i] = 0 := by
  unfold zap
  rw [List.mem_map]
  constructor
  · rintro ⟨⟨n, j⟩, hm, rfl⟩
    rw [List.mem_filter] at hm
    obtain ⟨h1, h2⟩ := hm
    rw [List.mem_zipIdx_iff_getElem?] at h1
    simp only at h1 h2 ⊢
    rw [List.getElem?_eq_getElem hi] at h1
    have : ns[j] = n := Option.some.inj h1
    rw [this]
    have := of_decide_eq_true h2
    omega
  · intro h
    refine ⟨(0, i), ?_, rfl⟩
    rw [List.mem_filter]
    refine ⟨?_, by simp⟩
    rw [List.mem_zipIdx_iff_getElem?]
    simp only
    rw [List.getElem?_eq_getElem hi, h]

theorem npDelete_zap {α : Type} (ns : List ℕ) (l : List α) (h : l.length = ns.length) :
    npDelete l (zap ns) = ((ns.zip l).filter fun p => decide (p.1 ≠ 0)).map (·.2) := by
  unfold npDelete
  apply npDelete_zipIdx ns l h 0
  intro i hi
  rw [Nat.zero_add]
  exact mem_zap ns i hi

/-- The entries kept, with their indices. -/
def kept (ns : List ℕ) (stamp : List (List K)) : List ((ℤ × ℤ) × K) :=
  ((ns.zip stamp).filter fun p => decide (p.1 ≠ 0)).flatMap fun p =>
    ((ns.zip p.2).filter fun q => decide (q.1 ≠ 0)).map fun q => (((p.1 : ℤ) - 1, (q.1 : ℤ) - 1), q.2)

theorem zip_filter_fst {α : Type} (ns : List ℕ) (l : List α) (h : l.length = ns.length) :
    ((ns.zip l).filter fun p => decide (p.1 ≠ 0)).map (·.1) = ns.filter fun j => decide (j ≠ 0) := by
  have e : (ns.zip l).map (·.1) = ns := List.map_fst_zip (by omega)
  conv_rhs => rw [← e]
  rw [List.filter_map]
  rfl

theorem fullIdx_filter (ns ms : List ℕ) :
    (ns.flatMap fun i : ℕ => ms.map fun j : ℕ => ((i : ℤ) - 1, (j : ℤ) - 1)).filter
        (fun p => decide (p.1 ≠ -1 ∧ p.2 ≠ -1)) =
      (ns.filter fun j => decide (j ≠ 0)).flatMap fun i : ℕ =>
        (ms.filter fun j => decide (j ≠ 0)).map fun j : ℕ => ((i : ℤ) - 1, (j : ℤ) - 1) := by
  induction ns with
  | nil => rfl
  | cons n ns ih =>
    rw [List.flatMap_cons, List.filter_append, ih, List.filter_cons]
    by_cases hn : n = 0
    · subst hn
      have : (ms.map fun j : ℕ => (((0 : ℕ) : ℤ) - 1, (j : ℤ) - 1)).filter
          (fun p => decide (p.1 ≠ -1 ∧ p.2 ≠ -1)) = [] := by
        rw [List.filter_eq_nil_iff]
        intro p hp
        rw [List.mem_map] at hp
        obtain ⟨j, -, rfl⟩ := hp
        simp
      rw [this]
      simp
    · have hd : decide (n ≠ 0) = true := by simp [hn]
      rw [hd, if_pos rfl, List.flatMap_cons]
      congr 1
      rw [List.filter_map]
      congr 1
      apply List.filter_congr
      intro j _
      simp only [Function.comp, decide_eq_decide]
      constructor
      · intro h hj; apply h.2; omega
      · intro h; constructor <;> omega

theorem reduce_eq (ns : List ℕ) (stamp : List (List K)) (h : stamp.length = ns.length)
    (hr : ∀ row ∈ stamp, row.length = ns.length) :
    reduce ns stamp = ((kept ns stamp).map (·.1), (kept ns stamp).map (·.2)) := by
  unfold reduce
  refine Prod.ext ?_ ?_
  · simp only [fullIdx, kept]
    rw [fullIdx_filter, List.map_flatMap, ← zip_filter_fst ns stamp h, List.flatMap_map]
    apply List.flatMap_congr
    intro p hp
    have hm : p.2 ∈ stamp := (List.of_mem_zip (List.mem_filter.1 hp).1).2
    have e := zip_filter_fst ns stamp h
    have e2 := zip_filter_fst ns p.2 (hr _ hm)
    rw [e, ← e2, List.map_map, List.map_map]
    rfl
  · simp only [kept]
    rw [npDelete_zap ns stamp h, List.map_map, List.map_flatMap, List.flatMap_def]
    congr 1
    apply List.map_congr_left
    intro p hp
    have hm : p.2 ∈ stamp := (List.of_mem_zip (List.mem_filter.1 hp).1).2
    simp only [Function.comp]
    rw [npDelete_zap ns p.2 (hr _ hm), List.map_map]
    rfl

/-- The sum of the values with the key `k`. -/
def total (l : List ((ℤ × ℤ) × K)) (k : ℤ × ℤ) : K := (l.map fun p => if p.1 = k then p.2 else 0).sum

theorem total_append (a b : List ((ℤ × ℤ) × K)) (k : ℤ × ℤ) :
    total (a ++ b) k = total a k + total b k := by
  simp [total]

theorem total_cons (p : (ℤ × ℤ) × K) (b : List ((ℤ × ℤ) × K)) (k : ℤ × ℤ) :
    total (p :: b) k = (if p.1 = k then p.2 else 0) + total b k := by
  simp [total]

theorem total_modify (ks : List (ℤ × ℤ)) (vs : List K) (h : ks.length = vs.length) (x : ℤ × ℤ)
    (hx : x ∈ ks) (v : K) (k : ℤ × ℤ) :
    total (ks.zip (vs.modify (ks.idxOf x) (· + v))) k =
      total (ks.zip vs) k + (if x = k then v else 0) := by
  induction ks generalizing vs with
  | nil => simp at hx
  | cons y ks ih =>
    cases vs with
    | nil => simp at h
    | cons w vs =>
      by_cases hy : y = x
      · subst hy
        simp only [List.idxOf_cons_self, List.modify_zero_cons, List.zip_cons_cons, total_cons]
        split <;> ring
      · have hx' : x ∈ ks := by
          rcases List.mem_cons.1 hx with h1 | h1
          · exact absurd h1.symm hy
          · exact h1
        rw [List.idxOf_cons_ne _ hy]
        simp only [List.modify_succ_cons, List.zip_cons_cons, total_cons]
        rw [ih vs (by simpa using h) hx']
        ring

structure FoldInv (done : List ((ℤ × ℤ) × K)) (acc : List (ℤ × ℤ) × List K) : Prop where
  len : acc.1.length = acc.2.length
  nodup : acc.1.Nodup
  mem : ∀ k, k ∈ acc.1 ↔ k ∈ done.map (·.1)
  total : ∀ k, total (acc.1.zip acc.2) k = total done k

theorem foldStep_inv (done : List ((ℤ × ℤ) × K)) (acc : List (ℤ × ℤ) × List K) (p : (ℤ × ℤ) × K)
    (h : FoldInv done acc) : FoldInv (done ++ [p]) (foldStep acc p) := by
  unfold foldStep
  split
  · rename_i hn
    constructor
    · simp [h.len]
    · simp only
      rw [List.nodup_append]
      refine ⟨h.nodup, by simp, ?_⟩
      intro a ha b hb
      rw [List.mem_singleton] at hb
      subst hb
      intro e; subst e; exact hn ha
    · intro k
      simp only [List.mem_append, List.mem_singleton, List.map_append, List.map_cons, List.map_nil]
      rw [h.mem]
    · intro k
      simp only
      rw [List.zip_append h.len, total_append, total_append, h.total]
      rfl
  · rename_i hn
    have hn' : p.1 ∈ acc.1 := by simpa using hn
    constructor
    · simp [h.len]
    · exact h.nodup
    · intro k
      simp only [List.map_append, List.map_cons, List.map_nil, List.mem_append, List.mem_singleton]
      rw [← h.mem]
      constructor
      · exact Or.inl
      · rintro (h1 | h1)
        · exact h1
        · subst h1; exact hn'
    · intro k
      simp only
      rw [total_modify _ _ h.len _ hn', total_append, h.total]
      congr 1
      rw [total_cons]
      simp [total]

theorem foldl_inv (l done : List ((ℤ × ℤ) × K)) (acc : List (ℤ × ℤ) × List K)
    (h : FoldInv done acc) : FoldInv (done ++ l) (l.foldl foldStep acc) := by
  induction l generalizing done acc with
  | nil => simpa using h
  | cons p l ih =>
    have := ih (done ++ [p]) (foldStep acc p) (foldStep_inv done acc p h)
    simpa using this

/-- Adding at distinct places adds everywhere the sum of the values for that place. -/
theorem fancy_foldl (J J0 : ℤ → ℤ → K) (l : List ((ℤ × ℤ) × K)) (hn : (l.map (·.1)).Nodup) (r c : ℤ)
    (hJ : ∀ p ∈ l, J p.1.1 p.1.2 = J0 p.1.1 p.1.2) :
    (l.foldl (fun J' p => setAt J' p.1 (J0 p.1.1 p.1.2 + p.2)) J) r c =
      J r c + total l (r, c) := by
  induction l generalizing J with
  | nil => simp [total]
  | cons p l ih =>
    rw [List.map_cons, List.nodup_cons] at hn
    rw [List.foldl_cons, ih _ hn.2, total_cons]
    · unfold setAt
      by_cases hp : (r, c) = p.1
      · rw [if_pos hp, if_pos hp.symm]
        have h1 := hJ p List.mem_cons_self
        rw [← hp] at h1
        simp only at h1
        rw [← hp, h1]
        ring
      · rw [if_neg hp, if_neg (fun h => hp h.symm)]
        ring
    · intro q hq
      unfold setAt
      have hne : (q.1.1, q.1.2) ≠ p.1 := by
        intro e
        apply hn.1
        rw [← e]
        exact List.mem_map.2 ⟨q, hq, rfl⟩
      rw [if_neg hne]
      exact hJ q (List.mem_cons_of_mem _ hq)

theorem total_kept (ns : List ℕ) (stamp : List (List K)) (r c : ℕ) :
    total (kept ns stamp) ((r : ℤ), (c : ℤ)) = fullEntry ns stamp (r + 1) (c + 1) := by
  unfold kept fullEntry
  have hin : ∀ (n : ℕ) (row : List (ℕ × K)), n ≠ 0 →
      total ((row.filter fun q => decide (q.1 ≠ 0)).map fun q => (((n : ℤ) - 1, (q.1 : ℤ) - 1), q.2))
        ((r : ℤ), (c : ℤ)) = (row.map fun e => if n = r + 1 ∧ e.1 = c + 1 then e.2 else 0).sum := by
    intro n row hn
    induction row with
    | nil => rfl
    | cons q row ih =>
      rw [List.filter_cons]
      by_cases hq : q.1 = 0
      · have h1 : decide (q.1 ≠ 0) = false := by simp [hq]
        rw [h1, List.map_cons, List.sum_cons, if_neg (by omega : ¬ (n = r + 1 ∧ q.1 = c + 1))]
        simpa using ih
      · have h1 : decide (q.1 ≠ 0) = true := by simp [hq]
        rw [h1, if_pos rfl, List.map_cons, total_cons, ih, List.map_cons, List.sum_cons]
        congr 1
        have : (((n : ℤ) - 1, (q.1 : ℤ) - 1) = ((r : ℤ), (c : ℤ))) ↔ (n = r + 1 ∧ q.1 = c + 1) := by
          rw [Prod.mk.injEq]; omega
        simp only [this]
  induction ns.zip stamp with
  | nil => rfl
  | cons p l ih =>
    rw [List.filter_cons, List.map_cons, List.sum_cons, ← ih]
    by_cases hn : p.1 = 0
    · have h1 : decide (p.1 ≠ 0) = false := by simp [hn]
      have h2 : ((ns.zip p.2).map fun e => if p.1 = r + 1 ∧ e.1 = c + 1 then e.2 else 0).sum = 0 := by
        apply List.sum_eq_zero
        intro x hx
        rw [List.mem_map] at hx
        obtain ⟨e, -, rfl⟩ := hx
        rw [if_neg (by omega)]
      rw [h1]
      simp [h2]
    · have h1 : decide (p.1 ≠ 0) = true := by simp [hn]
      rw [h1, if_pos rfl, List.flatMap_cons, total_append, hin _ _ hn]

theorem total_kept_neg (ns : List ℕ) (stamp : List (List K)) (r c : ℤ) (h : r < 0 ∨ c < 0) :
    total (kept ns stamp) (r, c) = 0 := by
  unfold total
  apply List.sum_eq_zero
  intro x hx
  rw [List.mem_map] at hx
  obtain ⟨p, hp, rfl⟩ := hx
  unfold kept at hp
  rw [List.mem_flatMap] at hp
  obtain ⟨q, hq, hp⟩ := hp
  rw [List.mem_map] at hp
  obtain ⟨e, he, rfl⟩ := hp
  have h1 := of_decide_eq_true (List.mem_filter.1 hq).2
  have h2 := of_decide_eq_true (List.mem_filter.1 he).2
  rw [if_neg]
  rw [Prod.mk.injEq]
  omega

/-! ### C45 -/

/-- C45: for every device, every connection of its terminals (tied together or to ground, but not all to
ground) and every stamp, the addition of the folded reduced stamp adds to every entry of the Jacobian
exactly the sum of the full stamp over the terminals connected there, and touches nothing else. -/
theorem C45_folded (J : ℤ → ℤ → K) (ns : List ℕ) (stamp : List (List K))
    (h : stamp.length = ns.length) (hr : ∀ row ∈ stamp, row.length = ns.length)
    (hg : ∃ n ∈ ns, n ≠ 0) :
    ∃ J', addStamp J ns stamp = some J' ∧
      (∀ r c : ℕ, J' r c = J r c + fullEntry ns stamp (r + 1) (c + 1)) ∧
      (∀ r c : ℤ, r < 0 ∨ c < 0 → J' r c = J r c) := by
  unfold addStamp fold
  rw [reduce_eq ns stamp h hr]
  simp only
  rw [List.zip_map', List.map_id'']
  · have inv := foldl_inv (kept ns stamp) [] ([], []) ⟨rfl, List.nodup_nil, by simp, by simp [total]⟩
    rw [List.nil_append] at inv
    set f := (kept ns stamp).foldl foldStep ([], []) with hf
    have hne : f.1 ≠ [] := by
      obtain ⟨n, hn, hn0⟩ := hg
      obtain ⟨i, hi, rfl⟩ := List.mem_iff_getElem.1 hn
      have hi' : i < stamp.length := by omega
      have hrow := hr _ (List.getElem_mem hi')
      have hi2 : i < (stamp[i]).length := by omega
      have hk : (((ns[i] : ℤ) - 1, (ns[i] : ℤ) - 1), stamp[i][i]) ∈ kept ns stamp := by
        unfold kept
        rw [List.mem_flatMap]
        refine ⟨(ns[i], stamp[i]), ?_, ?_⟩
        · rw [List.mem_filter]
          refine ⟨?_, by simpa using hn0⟩
          rw [List.mem_iff_getElem]
          exact ⟨i, by rw [List.length_zip]; omega, by rw [List.getElem_zip]⟩
        · rw [List.mem_map]
          refine ⟨(ns[i], stamp[i][i]), ?_, rfl⟩
          rw [List.mem_filter]
          refine ⟨?_, by simpa using hn0⟩
          rw [List.mem_iff_getElem]
          exact ⟨i, by rw [List.length_zip]; exact lt_min hi hi2, by rw [List.getElem_zip]⟩
      have : (((ns[i] : ℤ) - 1, (ns[i] : ℤ) - 1)) ∈ f.1 := by
        rw [inv.mem]
        exact List.mem_map.2 ⟨_, hk, rfl⟩
      exact List.ne_nil_of_mem this
    unfold fancyAdd
    rw [if_neg hne]
    refine ⟨_, rfl, ?_, ?_⟩
    · intro r c
      rw [fancy_foldl J J _ _ _ _ (fun _ _ => rfl), inv.total, total_kept]
      rw [List.map_fst_zip (by rw [inv.len])]
      exact inv.nodup
    · intro r c hrc
      rw [fancy_foldl J J _ _ _ _ (fun _ _ => rfl), inv.total, total_kept_neg _ _ _ _ hrc, add_zero]
      rw [List.map_fst_zip (by rw [inv.len])]
      exact inv.nodup
  · intro x; rfl

/-- C45: a device with all terminals at ground cannot be added: the index is empty. -/
theorem C45_grounded_refuted (J : ℤ → ℤ → K) (stamp : List (List K)) (h : stamp.length = 2)
    (hr : ∀ row ∈ stamp, row.length = 2) : addStamp J [0, 0] stamp = none := by
  have hk : kept [0, 0] stamp = [] := by
    unfold kept
    rw [List.flatMap_eq_nil_iff]
    intro p hp
    exfalso
    have h1 := (List.of_mem_zip (List.mem_filter.1 hp).1).1
    have h2 := of_decide_eq_true (List.mem_filter.1 hp).2
    simp at h1
    exact h2 h1
  unfold addStamp fold
  rw [reduce_eq [0, 0] stamp h hr, hk]
  rfl

/-- C45: the rows and columns of the diode stamp sum to zero. -/
theorem C45_diode_sums [DecidableEq K] (gmin gm : K) :
    (∀ row ∈ diodeStamp gmin gm, row.sum = 0) ∧
    (∀ i, ((diodeStamp gmin gm).map fun row => row.getD i 0).sum = 0) := by
  unfold diodeStamp
  constructor
  · intro row hrow
    simp only [List.mem_cons, List.not_mem_nil, or_false] at hrow
    rcases hrow with h | h <;> subst h <;> simp
  · intro i
    match i with
    | 0 => simp
    | 1 => simp
    | n + 2 => simp

/-- C45: so a diode with both terminals at the same node changes nothing in the Jacobian. -/
theorem C45_diode_tied [DecidableEq K] (J : ℤ → ℤ → K) (n : ℕ) (hn : n ≠ 0) (gmin gm : K) :
    ∃ J', addStamp J [n, n] (diodeStamp gmin gm) = some J' ∧ ∀ r c : ℕ, J' r c = J r c := by
  obtain ⟨J', h1, h2, -⟩ := C45_folded J [n, n] (diodeStamp gmin gm) rfl
    (by intro row hrow; simp only [diodeStamp, List.mem_cons, List.not_mem_nil, or_false] at hrow
        rcases hrow with h | h <;> subst h <;> rfl) ⟨n, by simp, hn⟩
  refine ⟨J', h1, fun r c => ?_⟩
  rw [h2]
  simp only [fullEntry, diodeStamp, List.zip_cons_cons, List.zip_nil_left, List.map_cons, List.map_nil,
    List.sum_cons, List.sum_nil]
  by_cases hx : n = r + 1 ∧ n = c + 1
  · rw [if_pos hx, if_pos hx]; ring
  · rw [if_neg hx, if_neg hx]; ring

/-- C45: the current of a device between different nodes is added at its first and subtracted at its
second node. Missing: equal nodes (below). -/
theorem C45_current_partial (T : ℤ → ℤ → K) (n1 n2 : ℕ) (i : K) (h : n1 ≠ n2) :
    ∃ T', addCurrent T n1 n2 i = some T' ∧
      ∀ r : ℕ, T' r 0 = T r 0 + (if n1 = r + 1 then i else 0) - (if n2 = r + 1 then i else 0) := by
  have hres : ∀ (l : List (ℤ × K)), l ≠ [] → (l.map (·.1)).Nodup →
      ∃ T', fancyAdd T (l.map fun p => (p.1, 0)) (l.map (·.2)) = some T' ∧
        ∀ r : ℤ, T' r 0 = T r 0 + (l.map fun p => if p.1 = r then p.2 else 0).sum := by
    intro l hl hnd
    unfold fancyAdd
    rw [if_neg (by simpa using hl)]
    refine ⟨_, rfl, fun r => ?_⟩
    rw [List.zip_map']
    rw [fancy_foldl T T _ _ _ _ (fun _ _ => rfl)]
    · simp [total, List.map_map, Function.comp_def]
    · rw [List.map_map]
      have : ((fun x : (ℤ × ℤ) × K => x.1) ∘ fun a : ℤ × K => ((a.1, (0 : ℤ)), a.2)) =
          (fun z : ℤ => (z, (0 : ℤ))) ∘ (·.1) := rfl
      rw [this, ← List.map_map]
      exact List.Nodup.map (fun a b h => (Prod.mk.inj h).1) hnd
  unfold addCurrent istamp
  by_cases h1 : n1 = 0
  · have h2 : n2 ≠ 0 := by omega
    have h2' : ¬ ((n2 : ℤ) - 1 = -1) := by omega
    have h1' : (n1 : ℤ) - 1 = -1 := by omega
    simp only [List.filter_cons, List.filter_nil, h1', h2', ne_eq, not_true_eq_false, decide_false,
      not_false_eq_true, decide_true, if_true, Bool.false_eq_true, if_false]
    obtain ⟨T', a, b⟩ := hres [((n2 : ℤ) - 1, -i)] (by simp) (by simp)
    refine ⟨T', a, fun r => ?_⟩
    rw [b]
    have e : ((n2 : ℤ) - 1 = (r : ℤ)) ↔ n2 = r + 1 := by omega
    simp only [List.map_cons, List.map_nil, List.sum_cons, List.sum_nil, e, h1]
    rw [if_neg (by omega : ¬ (0 = r + 1))]
    split <;> ring
  · have h1' : ¬ ((n1 : ℤ) - 1 = -1) := by omega
    by_cases h2 : n2 = 0
    · have h2' : (n2 : ℤ) - 1 = -1 := by omega
      simp only [List.filter_cons, List.filter_nil, h1', h2', ne_eq, not_true_eq_false, decide_false,
        not_false_eq_true, decide_true, if_true, Bool.false_eq_true, if_false]
      obtain ⟨T', a, b⟩ := hres [((n1 : ℤ) - 1, i)] (by simp) (by simp)
      refine ⟨T', a, fun r => ?_⟩
      rw [b]
      have e : ((n1 : ℤ) - 1 = (r : ℤ)) ↔ n1 = r + 1 := by omega
      simp only [List.map_cons, List.map_nil, List.sum_cons, List.sum_nil, e, h2]
      rw [if_neg (by omega : ¬ (0 = r + 1))]
      split <;> ring
    · have h2' : ¬ ((n2 : ℤ) - 1 = -1) := by omega
      simp only [List.filter_cons, List.filter_nil, h1', h2', ne_eq,
        not_false_eq_true, decide_true, if_true]
      obtain ⟨T', a, b⟩ := hres [((n1 : ℤ) - 1, i), ((n2 : ℤ) - 1, -i)] (by simp) (by
        simp; omega)
      refine ⟨T', a, fun r => ?_⟩
      rw [b]
      have e1 : ((n1 : ℤ) - 1 = (r : ℤ)) ↔ n1 = r + 1 := by omega
      have e2 : ((n2 : ℤ) - 1 = (r : ℤ)) ↔ n2 = r + 1 := by omega
      simp only [List.map_cons, List.map_nil, List.sum_cons, List.sum_nil, e1, e2]
      by_cases a1 : n1 = r + 1 <;> by_cases a2 : n2 = r + 1 <;> simp [a1, a2] <;> ring

/-- C45: the currents are not folded: a device with both terminals at one node takes its current out of
the node instead of leaving the sum unchanged. -/
theorem C45_current_refuted (T : ℤ → ℤ → K) (n : ℕ) (hn : n ≠ 0) (i : K) :
    ∃ T', addCurrent T n n i = some T' ∧ T' ((n : ℤ) - 1) 0 = T ((n : ℤ) - 1) 0 - i := by
  have h1 : ¬ ((n : ℤ) - 1 = -1) := by omega
  unfold addCurrent istamp
  simp only [List.filter_cons, List.filter_nil, h1, ne_eq, not_false_eq_true, decide_true, if_true]
  refine ⟨_, rfl, ?_⟩
  simp [setAt, sub_eq_add_neg]

/-- The full stamp of one drive port. -/
def portEntry (n1 n2 : ℕ) (p : (ℕ × ℕ) × K) (r c : ℕ) : K :=
  ((if r = n1 then 1 else 0) - (if r = n2 then 1 else 0)) *
    ((if c = p.1.1 then 1 else 0) - (if c = p.1.2 then 1 else 0)) * p.2

theorem addPort_eq (n1 n2 : ℕ) (J : ℤ → ℤ → K) (p : (ℕ × ℕ) × K) (r c : ℕ) :
    addPort n1 n2 J p r c = J r c + portEntry n1 n2 p (r + 1) (c + 1) := by
  have step : ∀ (J : ℤ → ℤ → K) (a b : ℕ) (v : K),
      (if a ≠ 0 ∧ b ≠ 0 then setAt J ((a : ℤ) - 1, (b : ℤ) - 1) (J ((a : ℤ) - 1) ((b : ℤ) - 1) + v) else J)
        (r : ℤ) (c : ℤ) = J r c + (if r + 1 = a then 1 else 0) * (if c + 1 = b then 1 else 0) * v := by
    intro J a b v
    by_cases h : a ≠ 0 ∧ b ≠ 0
    · rw [if_pos h]
      unfold setAt
      by_cases hk : ((r : ℤ), (c : ℤ)) = ((a : ℤ) - 1, (b : ℤ) - 1)
      · rw [if_pos hk]
        have h1 := (Prod.mk.inj hk).1
        have h2 := (Prod.mk.inj hk).2
        rw [if_pos (by omega), if_pos (by omega), ← h1, ← h2]
        ring
      · rw [if_neg hk]
        have : ¬ (r + 1 = a ∧ c + 1 = b) := by
          intro hh; apply hk; rw [Prod.mk.injEq]; omega
        by_cases h1 : r + 1 = a
        · have h2 : ¬ (c + 1 = b) := fun hh => this ⟨h1, hh⟩
          rw [if_neg h2]; ring
        · rw [if_neg h1]; ring
    · rw [if_neg h]
      by_cases h1 : r + 1 = a
      · have h2 : ¬ (c + 1 = b) := by omega
        rw [if_neg h2]; ring
      · rw [if_neg h1]; ring
  simp only [addPort]
  rw [step, step, step, step]
  unfold portEntry
  ring

/-- C45: the branch for devices without stamps (switch, EKV transistor) adds to every entry of the
Jacobian the sum over the drive ports of their full stamps, for all connections. -/
theorem C45_ports (J : ℤ → ℤ → K) (n1 n2 : ℕ) (ports : List ((ℕ × ℕ) × K)) (r c : ℕ) :
    addPorts J n1 n2 ports r c =
      J r c + (ports.map fun p => portEntry n1 n2 p (r + 1) (c + 1)).sum := by
  unfold addPorts
  induction ports generalizing J with
  | nil => simp
  | cons p ports ih =>
    rw [List.foldl_cons, ih, addPort_eq, List.map_cons, List.sum_cons]
    ring

/-- A three-terminal example with two terminals tied together and one grounded. -/
example : ∃ J', addStamp (K := ℚ) (fun _ _ => 0) [2, 2, 0] [[1, 2, -3], [4, 5, -9], [-5, -7, 12]] = some J' ∧
    J' 1 1 = 12 ∧ J' 0 0 = 0 := by
  obtain ⟨J', h1, h2, -⟩ := C45_folded (K := ℚ) (fun _ _ => 0) [2, 2, 0]
    [[1, 2, -3], [4, 5, -9], [-5, -7, 12]] rfl (by decide) ⟨2, by simp, by decide⟩
  refine ⟨J', h1, ?_, ?_⟩
  · have := h2 1 1
    simp only [Nat.cast_one] at this
    rw [this]
    simp [fullEntry]; norm_num
  · have := h2 0 0
    simp only [Nat.cast_zero] at this
    rw [this]
    simp [fullEntry]

end Verif.Stamp
