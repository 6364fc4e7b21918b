import Verif.Props.Recip
import Verif.Props.Op

/-!
C143: the node voltages of resistor circuits lie between those of the sources.
-/

namespace Verif.Bound
open Verif.Circuit Verif.Mna Verif.Dyn Verif.Rlc Verif.Recip

variable {K : Type} [Field K] [LinearOrder K] [IsStrictOrderedRing K]

/-- cuts the voltages above or below a bound -/
structure Cut (f : K → K) : Prop where
  zero : f 0 = 0
  grow : ∀ a b, (f a - f b) * (f a - f b) ≤ (f a - f b) * (a - b)

theorem cut_above {hi : K} (h : 0 ≤ hi) : Cut fun t => max (t - hi) 0 := by
  refine ⟨max_eq_right (by linarith), fun a b => ?_⟩
  rcases le_total (a - hi) 0 with h1 | h1 <;> rcases le_total (b - hi) 0 with h2 | h2 <;>
    simp only [max_eq_left, max_eq_right, h1, h2] <;> nlinarith

theorem cut_below {lo : K} (h : lo ≤ 0) : Cut fun t => min (t - lo) 0 := by
  refine ⟨min_eq_right (by linarith), fun a b => ?_⟩
  rcases le_total (a - lo) 0 with h1 | h1 <;> rcases le_total (b - lo) 0 with h2 | h2 <;>
    simp only [min_eq_left, min_eq_right, h1, h2] <;> nlinarith

omit [LinearOrder K] [IsStrictOrderedRing K] in
theorem kcl_none {circ : List (Elem K)} {nv : Nat} (y : Vec K) (l : List (Elem K)) (k r : Nat)
    (hp : ∀ e ∈ l, TwoPole e) (hy : ∀ j, y (nv + j) = 0)
    (h : ∀ id n1 n2 v, Elem.R id n1 n2 v ∈ l → y n1 - y n2 = 0) :
    kcl circ nv y (fun _ => 0) l k r = 0 := by
  induction l generalizing k with
  | nil => rfl
  | cons e t ih =>
    rw [kcl, ih _ (fun e' h' => hp e' (List.mem_cons_of_mem _ h'))
      fun id a b v hm => h id a b v (List.mem_cons_of_mem _ hm)]
    have h1 := hp e (List.mem_cons_self ..)
    cases e <;> simp only [TwoPole] at h1 <;> simp only [current, hy, inj_zero, add_zero]
    rw [h _ _ _ _ (List.mem_cons_self ..), zero_div, inj_zero]

omit [LinearOrder K] [IsStrictOrderedRing K] in
theorem brSum_zero (f : Nat → Elem K → K) (l : List (Elem K)) (k : Nat)
    (h : ∀ j e, (vdes l)[j]? = some e → f (k + j) e = 0) : brSum f l k = 0 := by
  rw [brSum_eq f (fun _ => 0) l k fun j e hj => (h j e hj).symm]
  simp

/-- a function that cuts nothing from the sources cuts nothing from the nodes -/
theorem cut_nothing {nv m : Nat} {circ : List (Elem K)} {s : Sys K} {g : K} (hnv : 0 < nv) (hg : 0 ≤ g)
    (he : ∀ e ∈ circ, NodesLt nv e) (hp : ∀ e ∈ circ, TwoPole e) (hpos : ∀ e ∈ circ, Positive e)
    (h : generate circ nv = .ok s) (hm : s.size = m + 1)
    (hreg : ∀ y : Vec K, Solution nv s.size s.M (fun _ _ => 0) (fun _ => 0) 0 g y → ∀ r < nv, y r = 0)
    {f : K → K} (hf : Cut f) {x : Vec K} (hx : Solution nv s.size s.M (fun _ _ => 0) s.N 0 g x)
    (hV : ∀ id n1 n2 v, Elem.V id n1 n2 v ∈ circ → x n1 - x n2 = staticVal v → f (x n1) = f (x n2))
    (hI : ∀ id n1 n2 v, Elem.I id n1 n2 v ∈ circ → 0 ≤ staticVal v * (f (x n1) - f (x n2))) :
    ∀ r < nv, f (x r) = 0 := by
  obtain ⟨hS, hn, hb⟩ := rows_linear he hp h x
  set y : Vec K := fun r => if r < nv then f (x r) else 0 with hy
  have y0 : y 0 = 0 := by simp [hy, hnv, hx.1, hf.zero]
  have yn : ∀ r < nv, y r = f (x r) := fun r hr => by simp [hy, hr]
  have yb : ∀ j, y (nv + j) = 0 := fun j => by simp [hy]
  have tl : ∀ e ∈ circ, (term e).1 < nv ∧ (term e).2 < nv := fun e hm => (he e hm).term_lt' hnv
  -- the branch equations
  have br : ∀ (j : Nat) (e : Elem K), (vdes circ)[j]? = some e → y (term e).1 = y (term e).2 := by
    intro j e hj
    have hin : e ∈ circ := (List.mem_filter.1 (List.mem_of_getElem? hj)).1
    have hv : e.vde = true := (List.mem_filter.1 (List.mem_of_getElem? hj)).2
    have hlt := (List.getElem?_eq_some_iff.mp hj).1
    have h1 := hx.2 (nv + j) (by omega) (by omega)
    rw [if_neg (by omega), (hb j e hj).1, (hb j e hj).2] at h1
    have h2 := tl e hin
    have h3 := hp e hin
    cases e <;> simp only [TwoPole] at h3 <;> simp only [Elem.vde, Bool.false_eq_true] at hv <;>
      simp only [term] at h2 ⊢ <;> rw [yn _ h2.1, yn _ h2.2]
    · simp [law] at h1
      rw [sub_eq_zero.1 h1]
    · rename_i id n1 n2 v
      refine hV id n1 n2 v hin ?_
      simp [law] at h1
      linear_combination h1
  have w := solution_weighed (by omega) hx y y0
  rw [static_bil hnv he hp h, drive_dc hnv he hp h, drive] at w
  have c0 : brSum (cross nv y x) circ 0 = 0 := brSum_zero _ _ _ fun j e hj => by
    rw [Nat.zero_add, cross, br j e hj, yb]
    ring
  have c1 : brSum (srcBranch staticVal nv y) circ 0 = 0 := brSum_zero _ _ _ fun j e _ => by
    cases e <;> simp [srcBranch, yb]
  have c2 : 0 ≤ (circ.map (srcNode staticVal y)).sum := sum_nonneg' _ _ fun e hm => by
    have h2 := tl e hm
    cases e <;> simp only [srcNode] <;> try exact le_refl _
    simp only [term] at h2
    rw [yn _ h2.1, yn _ h2.2]
    exact hI _ _ _ _ hm
  have c3 : 0 ≤ ∑ r ∈ Finset.range nv, y r * x r := Finset.sum_nonneg fun r hr => by
    rw [yn _ (Finset.mem_range.1 hr)]
    have := hf.grow (x r) 0
    rw [hf.zero, sub_zero, sub_zero] at this
    exact le_trans (mul_self_nonneg _) this
  have rpos : ∀ e ∈ circ, 0 ≤ resForm y x e := by
    intro e hm
    have h2 := tl e hm
    have h3 := hpos e hm
    cases e <;> simp only [resForm] <;> try exact le_refl _
    simp only [term, Positive] at h2 h3
    rw [yn _ h2.1, yn _ h2.2]
    exact div_nonneg (le_trans (mul_self_nonneg _) (hf.grow _ _)) h3.le
  have c4 : 0 ≤ (circ.map (resForm y x)).sum := sum_nonneg' _ _ rpos
  have c5 : 0 ≤ g * ∑ r ∈ Finset.range nv, y r * x r := mul_nonneg hg c3
  rw [c0, c1] at w
  have z1 : (circ.map (resForm y x)).sum = 0 := by linarith
  have z2 : g * ∑ r ∈ Finset.range nv, y r * x r = 0 := by linarith
  have res : ∀ id n1 n2 v, Elem.R id n1 n2 v ∈ circ → y n1 - y n2 = 0 := by
    intro id n1 n2 v hm
    have h1 : resForm y x (.R id n1 n2 v) = 0 := by
      exact List.all_zero_of_le_zero_le_of_sum_eq_zero (l := circ.map (resForm y x))
        (by intro a ha; obtain ⟨e, h', rfl⟩ := List.mem_map.1 ha; exact rpos e h') z1 (List.mem_map.2 ⟨_, hm, rfl⟩)
    have h2 := tl _ hm
    have h3 := hpos _ hm
    simp only [resForm, term, Positive] at h1 h2 h3
    rw [div_eq_zero_iff, yn _ h2.1, yn _ h2.2] at h1
    rw [yn _ h2.1, yn _ h2.2]
    have := hf.grow (x n1) (x n2)
    rw [h1.resolve_right h3.ne'] at this
    exact mul_self_eq_zero.1 (le_antisymm this (mul_self_nonneg _))
  have gy : ∀ r < nv, g * y r = 0 := by
    intro r hr
    rcases mul_eq_zero.1 z2 with hz | hz
    · rw [hz, zero_mul]
    · have h1 := (Finset.sum_eq_zero_iff_of_nonneg fun r hr => by
        rw [yn _ (Finset.mem_range.1 hr)]
        have := hf.grow (x r) 0
        rw [hf.zero, sub_zero, sub_zero] at this
        exact le_trans (mul_self_nonneg _) this).1 hz r (Finset.mem_range.2 hr)
      have := hf.grow (x r) 0
      rw [hf.zero, sub_zero, sub_zero, ← yn r hr, h1] at this
      rw [mul_self_eq_zero.1 (le_antisymm this (mul_self_nonneg _)), mul_zero]
  have key : Solution nv s.size s.M (fun _ _ => 0) (fun _ => 0) 0 g y := by
    obtain ⟨-, hn', hb'⟩ := rows_linear he hp h y
    refine ⟨y0, fun r _ hr => ?_⟩
    by_cases hlt : r < nv
    · rw [if_pos hlt, (hn' r hlt).1, kcl_none y circ 0 r hp yb res, gy r hlt]
      simp
    · obtain ⟨k, rfl⟩ : ∃ k, r = nv + k := ⟨r - nv, by omega⟩
      have hk : k < (vdes circ).length := by omega
      have hj := List.getElem?_eq_getElem hk
      rw [if_neg hlt, (hb' k _ hj).1]
      have hin : (vdes circ)[k] ∈ circ := (List.mem_filter.1 (List.getElem_mem hk)).1
      have hv : ((vdes circ)[k]).vde = true := (List.mem_filter.1 (List.getElem_mem hk)).2
      have h1 := hp _ hin
      have h2 := br k _ hj
      revert hv h1 h2
      cases (vdes circ)[k] <;> simp [TwoPole, law, Elem.vde, term]
      · intro _ h2; rw [h2, sub_self]
      · intro _ h2; rw [h2, sub_self]
  intro r hr
  rw [← yn r hr]
  exact hreg y key r hr

/-! ### Reported operating points -/

/-- the circuit that `op_analysis` solves -/
def opCirc (m nv : Nat) (s : Sys K) : Op.Circ K m :=
  { mna := reduce m s.M, N := reduceV m s.N, Ntran := 0, nn := nv - 1, nonlinear := false
    J := fun _ => 0, Tx := fun _ => 0, locked := [] }

open Op in
/-- what `op_analysis` reports solves the circuit with some conductance between each node and ground -/
theorem op_solves {m : Nat} {o : OOpts K} (ho : Plain o) (ha : AllMeth o) {c : Circ K m} (hc : Linear c) {gmin : K}
    (hg : 0 ≤ gmin) {x0 : Option (Fin m → K)} {r : OpSol K m} (h : opAnalysis o c gmin x0 = some (some r)) :
    ∃ g, 0 ≤ g ∧ (c.mna + gminMat c.nn g).det ≠ 0 ∧
      (c.mna + gminMat c.nn g).mulVec r.x + (c.N + c.Ntran) = 0 := by
  have key : ∀ g', 0 ≤ g' → ∀ y z, dcSolve o c g' y = .solved z → ∃ g, 0 ≤ g ∧ (c.mna + gminMat c.nn g).det ≠ 0 ∧
      (c.mna + gminMat c.nn g).mulVec z + (c.N + c.Ntran) = 0 := by
    intro g' h0 y z hz
    by_cases hd : (c.mna + gminMat c.nn g').det = 0
    · by_cases hs : ∀ j, j ≤ 9 → (stepMat c j).det ≠ 0
      · obtain ⟨w, h1, h2⟩ := (dcSolve_singular ho ha hc g' hd y).1 hs
        rw [h1] at hz
        cases hz
        refine ⟨1 / 10 ^ (9 + 1), by positivity, ?_, ?_⟩
        · rw [add_comm]; exact hs 9 (le_refl _)
        · rw [stepMat, add_comm (gminMat _ _)] at h2; exact h2
      · push Not at hs
        rw [(dcSolve_singular ho ha hc g' hd y).2 hs] at hz
        exact absurd hz (by simp)
    · obtain ⟨w, h1, h2⟩ := dcSolve_regular ho ha.std hc g' hd y 63
      rw [h1] at hz
      cases hz
      exact ⟨g', h0, hd, h2⟩
  unfold opAnalysis at h
  cases e1 : dcSolve o c gmin x0 with
  | solved x1 =>
    rw [e1] at h
    simp only at h
    cases e2 : dcSolve o c 0 (some x1) with
    | solved x2 =>
      rw [e2] at h
      simp only [Option.some.injEq] at h
      subst h
      exact key 0 (le_refl _) _ _ e2
    | failed =>
      rw [e2] at h
      simp only [Option.some.injEq] at h
      subst h
      exact key gmin hg _ _ e1
    | _ => rw [e2] at h; simp at h
  | _ => rw [e1] at h; simp at h

omit [LinearOrder K] [IsStrictOrderedRing K] in
theorem solution_iff {m nv : Nat} (hnv : 0 < nv) (M : Mat K) (N : Vec K) (g : K) (x : Fin m → K) :
    (reduce m M + Op.gminMat (nv - 1) g).mulVec x + reduceV m N = 0 ↔
      Solution nv (m + 1) M (fun _ _ => 0) N 0 g (Rlc.ext x) := by
  have row : ∀ i : Fin m, ((reduce m M + Op.gminMat (nv - 1) g).mulVec x + reduceV m N) i =
      mulVec (m + 1) M (Rlc.ext x) (i.val + 1) + 0 * mulVec (m + 1) (fun _ _ => 0) (Rlc.ext x) (i.val + 1) +
        (if i.val + 1 < nv then g * Rlc.ext x (i.val + 1) else 0) + N (i.val + 1) := by
    intro i
    have ex : Rlc.ext x (i.val + 1) = x i := by simp [Rlc.ext, i.isLt]
    rw [Pi.add_apply, Matrix.add_mulVec, Pi.add_apply, reduce_row, Op.gminMat, Matrix.mulVec_diagonal, ex]
    by_cases hc : i.val < nv - 1
    · rw [if_pos hc, if_pos (by omega)]; simp [reduceV]
    · rw [if_neg hc, if_neg (by omega)]; simp [reduceV]
  constructor
  · intro h
    refine ⟨rfl, fun r h0 hr => ?_⟩
    obtain ⟨i, rfl⟩ : ∃ i, r = i + 1 := ⟨r - 1, by omega⟩
    have := row ⟨i, by omega⟩
    rw [h] at this
    exact this.symm
  · intro h
    funext i
    rw [row i]
    exact h.2 (i.val + 1) (by omega) (by have := i.isLt; omega)

/-- the potential that a source between a node and ground gives to its node -/
def Fixes (lo hi : K) : Elem K → Prop
  | .V _ n1 n2 v => (n2 = 0 ∧ lo ≤ staticVal v ∧ staticVal v ≤ hi) ∨ (n1 = 0 ∧ lo ≤ -staticVal v ∧ -staticVal v ≤ hi)
  | .I .. => False
  | _ => True

omit [LinearOrder K] [IsStrictOrderedRing K] in
theorem regular {m nv : Nat} {s : Sys K} {g : K} (hnv : 0 < nv) (hm : s.size = m + 1)
    (hd : (reduce m s.M + Op.gminMat (nv - 1) g).det ≠ 0) (y : Vec K)
    (hy : Solution nv s.size s.M (fun _ _ => 0) (fun _ => 0) 0 g y) (r : Nat) (hr : r < m + 1) : y r = 0 := by
  rw [hm] at hy
  set x : Fin m → K := fun i => y (i.val + 1) with hx
  have he : ∀ k < m + 1, Rlc.ext x k = y k := by
    intro k hk
    cases k with
    | zero => exact hy.1.symm
    | succ k => simp [Rlc.ext, hx, show k < m by omega]
  have hS : Solution nv (m + 1) s.M (fun _ _ => 0) (fun _ => 0) 0 g (Rlc.ext x) := by
    refine ⟨rfl, fun k h0 hk => ?_⟩
    refine Eq.trans ?_ (hy.2 k h0 hk)
    rw [he k hk]
    have : ∀ A : Mat K, mulVec (m + 1) A (Rlc.ext x) k = mulVec (m + 1) A y k := fun A =>
      Finset.sum_congr rfl fun j hj => by rw [he j (Finset.mem_range.1 hj)]
    rw [this, this]
  have h0 := (solution_iff hnv s.M (fun _ => 0) g x).2 hS
  have h1 : (reduce m s.M + Op.gminMat (nv - 1) g).mulVec x = 0 := by
    rw [← h0]
    funext i
    simp [reduceV]
  have h2 : x = 0 := Matrix.eq_zero_of_mulVec_eq_zero hd h1
  rw [← he r hr, h2]
  cases r <;> simp [Rlc.ext]

/-- C143: resistors, capacitors, inductors, couplings and voltage sources between a node and ground: all node voltages
of a reported operating point are between those of the sources and ground. -/
theorem C143_between {nv m : Nat} {circ : List (Elem K)} {s : Sys K} {o : Op.OOpts K} {gmin lo hi : K}
    {x0 : Option (Fin m → K)} {r : Op.OpSol K m} (hnv : 0 < nv)
    (he : ∀ e ∈ circ, NodesLt nv e) (hp : ∀ e ∈ circ, TwoPole e) (hpos : ∀ e ∈ circ, Positive e)
    (hf : ∀ e ∈ circ, Fixes lo hi e) (hlo : lo ≤ 0) (hhi : 0 ≤ hi)
    (h : generate circ nv = .ok s) (hm : s.size = m + 1)
    (ho : Op.Plain o) (ha : Op.AllMeth o) (hg : 0 ≤ gmin)
    (hr : Op.opAnalysis o (opCirc m nv s) gmin x0 = some (some r)) :
    ∀ i : Fin m, i.val < nv - 1 → lo ≤ r.x i ∧ r.x i ≤ hi := by
  obtain ⟨g, g0, hd, hx⟩ := op_solves ho ha (c := opCirc m nv s) ⟨rfl, rfl⟩ hg hr
  simp only [opCirc, add_zero] at hd hx
  have hS := (solution_iff hnv _ _ _ _).1 hx
  rw [← hm] at hS
  have hz := (rows_linear he hp h (fun _ => 0)).1
  have hreg : ∀ y : Vec K, Solution nv s.size s.M (fun _ _ => 0) (fun _ => 0) 0 g y → ∀ r < nv, y r = 0 :=
    fun y hy r hr => regular hnv hm hd y hy r (by omega)
  have cut : ∀ f : K → K, Cut f → (∀ t, lo ≤ t → t ≤ hi → f t = 0) → ∀ k < nv, f (Rlc.ext r.x k) = 0 := by
    intro f hcut hin
    refine cut_nothing hnv g0 he hp hpos h hm hreg hcut hS ?_ ?_
    · intro id n1 n2 v hmem hv
      rcases hf _ hmem with ⟨rfl, h1, h2⟩ | ⟨rfl, h1, h2⟩
      · rw [show Rlc.ext r.x 0 = 0 from rfl, sub_zero] at hv
        rw [show Rlc.ext r.x 0 = 0 from rfl, hv, hcut.zero]
        exact hin _ h1 h2
      · rw [show Rlc.ext r.x 0 = 0 from rfl, zero_sub] at hv
        rw [show Rlc.ext r.x 0 = 0 from rfl, hcut.zero, hin _ (by rw [← neg_neg (Rlc.ext r.x n2), hv]; exact h1)
          (by rw [← neg_neg (Rlc.ext r.x n2), hv]; exact h2)]
    · intro id n1 n2 v hmem
      exact (hf _ hmem).elim
  intro i hi'
  have ex : Rlc.ext r.x (i.val + 1) = r.x i := by simp [Rlc.ext, i.isLt]
  have a := cut _ (cut_above hhi) (fun t _ h2 => max_eq_right (by linarith)) (i.val + 1) (by omega)
  have b := cut _ (cut_below hlo) (fun t h1 _ => min_eq_right (by linarith)) (i.val + 1) (by omega)
  simp only [ex] at a b
  have a' := max_eq_right_iff.1 a
  have b' := min_eq_right_iff.1 b
  exact ⟨by linarith, by linarith⟩

/-- current sources push current from ground into a node, voltage sources lift their node -/
def Feeds : Elem K → Prop
  | .V _ n1 n2 v => (n2 = 0 ∧ 0 ≤ staticVal v) ∨ (n1 = 0 ∧ staticVal v ≤ 0)
  | .I _ n1 n2 v => (n1 = 0 ∧ 0 ≤ staticVal v) ∨ (n2 = 0 ∧ staticVal v ≤ 0)
  | _ => True

/-- C143: with sources that push current into the nodes or lift them, no node voltage is negative. -/
theorem C143_nonneg {nv m : Nat} {circ : List (Elem K)} {s : Sys K} {o : Op.OOpts K} {gmin : K}
    {x0 : Option (Fin m → K)} {r : Op.OpSol K m} (hnv : 0 < nv)
    (he : ∀ e ∈ circ, NodesLt nv e) (hp : ∀ e ∈ circ, TwoPole e) (hpos : ∀ e ∈ circ, Positive e)
    (hf : ∀ e ∈ circ, Feeds e)
    (h : generate circ nv = .ok s) (hm : s.size = m + 1)
    (ho : Op.Plain o) (ha : Op.AllMeth o) (hg : 0 ≤ gmin)
    (hr : Op.opAnalysis o (opCirc m nv s) gmin x0 = some (some r)) :
    ∀ i : Fin m, i.val < nv - 1 → 0 ≤ r.x i := by
  obtain ⟨g, g0, hd, hx⟩ := op_solves ho ha (c := opCirc m nv s) ⟨rfl, rfl⟩ hg hr
  simp only [opCirc, add_zero] at hd hx
  have hS := (solution_iff hnv _ _ _ _).1 hx
  rw [← hm] at hS
  have hz := (rows_linear he hp h (fun _ => 0)).1
  have hreg : ∀ y : Vec K, Solution nv s.size s.M (fun _ _ => 0) (fun _ => 0) 0 g y → ∀ r < nv, y r = 0 :=
    fun y hy r hr => regular hnv hm hd y hy r (by omega)
  have hcut := cut_below (le_refl (0 : K))
  have neg : ∀ t : K, min (t - 0) 0 ≤ 0 := fun t => min_le_right _ _
  have pos : ∀ t : K, 0 ≤ t → min (t - 0) 0 = 0 := fun t ht => min_eq_right (by linarith)
  have e0 : Rlc.ext r.x 0 = 0 := rfl
  have key := cut_nothing hnv g0 he hp hpos h hm hreg hcut hS (by
    intro id n1 n2 v hmem hv
    rcases hf _ hmem with ⟨rfl, h1⟩ | ⟨rfl, h1⟩
    · rw [e0, sub_zero] at hv
      simp only [e0, hv]
      rw [pos _ h1, pos _ (le_refl _)]
    · rw [e0, zero_sub] at hv
      simp only [e0]
      rw [pos _ (le_refl _), pos _ (by linarith)]) (by
    intro id n1 n2 v hmem
    rcases hf _ hmem with ⟨rfl, h1⟩ | ⟨rfl, h1⟩
    · simp only [e0]
      rw [pos _ (le_refl _), zero_sub]
      exact mul_nonneg h1 (by have := neg (Rlc.ext r.x n2); linarith)
    · simp only [e0]
      rw [pos _ (le_refl _), sub_zero]
      exact mul_nonneg_of_nonpos_of_nonpos h1 (neg _))
  intro i hi
  have ex : Rlc.ext r.x (i.val + 1) = r.x i := by simp [Rlc.ext, i.isLt]
  have b := key (i.val + 1) (by omega)
  simp only [ex] at b
  have b' := min_eq_right_iff.1 b
  linarith

/-! ### Examples -/

/-- 2 V over resistors of 1 and 3 ohm -/
def divider : List (Elem ℚ) :=
  [.V "V1" 1 0 { dc := some 2 }, .R "R1" 1 2 1, .R "R2" 2 0 3]

/-- 1 A pushed into node 1, from which resistors of 1 and 3 ohm lead to ground -/
def fed : List (Elem ℚ) :=
  [.I "I1" 0 1 { dc := some 1 }, .R "R1" 1 2 1, .R "R2" 2 0 3]

/-- the equations of a circuit -/
def sysOf (circ : List (Elem ℚ)) (nv : Nat) : Sys ℚ :=
  match generate circ nv with
  | .ok s => s
  | .error _ => ⟨0, fun _ _ => 0, fun _ => 0⟩

example (x0 : Option (Fin 3 → ℚ)) : ∃ r,
    Op.opAnalysis Op.dflt (opCirc 3 3 (sysOf divider 3)) (1 / 10 ^ 12) x0 = some (some r) ∧ 0 ≤ r.x 1 ∧ r.x 1 ≤ 2 := by
  obtain ⟨x, h, -⟩ := Op.C119_linear (o := Op.dflt) (c := opCirc 3 3 (sysOf divider 3)) ⟨rfl, by decide⟩ rfl ⟨rfl, rfl⟩
    (1 / 10 ^ 12) (by simp only [opCirc]; decide +kernel) (by simp only [opCirc]; decide +kernel) x0
  refine ⟨_, h, ?_⟩
  refine C143_between (circ := divider) (nv := 3) (o := Op.dflt) (by decide) ?_ ?_ ?_ ?_ (by norm_num) (by norm_num) rfl rfl
    ⟨rfl, by decide⟩ ⟨rfl, rfl, rfl, by decide⟩ (by norm_num) h 1 (by decide)
  all_goals simp [divider, NodesLt, TwoPole, Positive, Fixes, staticVal]

example (x0 : Option (Fin 2 → ℚ)) : ∃ r,
    Op.opAnalysis Op.dflt (opCirc 2 3 (sysOf fed 3)) (1 / 10 ^ 12) x0 = some (some r) ∧ 0 ≤ r.x 1 := by
  obtain ⟨x, h, -⟩ := Op.C119_linear (o := Op.dflt) (c := opCirc 2 3 (sysOf fed 3)) ⟨rfl, by decide⟩ rfl ⟨rfl, rfl⟩
    (1 / 10 ^ 12) (by simp only [opCirc]; decide +kernel) (by simp only [opCirc]; decide +kernel) x0
  refine ⟨_, h, ?_⟩
  refine C143_nonneg (circ := fed) (nv := 3) (o := Op.dflt) (by decide) ?_ ?_ ?_ ?_ rfl rfl
    ⟨rfl, by decide⟩ ⟨rfl, rfl, rfl, by decide⟩ (by norm_num) h 1 (by decide)
  all_goals simp [fed, NodesLt, TwoPole, Positive, Feeds, staticVal]

end Verif.Bound
