import Verif.Props.PssRun
import Verif.Props.Settle

/-!
C195: the two methods of the periodic steady state analysis and the operating point.
C196: the periodic steady state analyses of passive circuits.
-/

namespace Verif.PssRun
open Matrix Verif.Circuit

section
variable {K : Type} [Field K] [LinearOrder K] {m : Nat}

/-- the point before, in a period of `N` points -/
def before (N i : Nat) : Nat := if i = 0 then N - 1 else i - 1

/-- without sources, nothing but zero repeats after `N` steps -/
def OnlyZero (c : PCirc K m) (h : K) (N : Nat) : Prop :=
  ∀ d : Nat → Fin m → K, (∀ i < N, (c.mna + (1 / h) • c.D) *ᵥ d i - ((1 / h) • c.D) *ᵥ d (before N i) = 0) →
    ∀ i < N, d i = 0

omit [LinearOrder K] in
theorem onlyZero_unique {c : PCirc K m} {h : K} {N : Nat} (h0 : OnlyZero c h N) {b : Nat → Fin m → K} {y z : Nat → Fin m → K}
    (hy : ∀ i < N, (c.mna + (1 / h) • c.D) *ᵥ y i - ((1 / h) • c.D) *ᵥ y (before N i) + b i = 0)
    (hz : ∀ i < N, (c.mna + (1 / h) • c.D) *ᵥ z i - ((1 / h) • c.D) *ᵥ z (before N i) + b i = 0) :
    ∀ i < N, y i = z i := by
  intro i hi
  refine sub_eq_zero.1 (h0 (fun i => y i - z i) (fun j hj => ?_) i hi)
  have a := hy j hj
  have e := hz j hj
  simp only [mulVec_sub]
  rw [← sub_zero (0 : Fin m → K)]
  nth_rewrite 2 [← e]
  rw [← a]
  abel

theorem regular_onlyZero [IsStrictOrderedRing K] {c : PCirc K m} {h : K} {N : Nat} (hr : Regular c h N) : OnlyZero c h N := by
  intro d hd i hi
  refine C172_unique (c := { c with Ts := fun _ => 0 }) ⟨hr.step, hr.period⟩ (y := d) (z := fun _ => 0) (fun j hj => ?_)
    (fun j hj => ?_) i hi
  · have := hd j hj
    simpa [before] using this
  · simp

omit [LinearOrder K] in
theorem onlyZero_regular {c : PCirc K m} {h : K} {N : Nat} (hN : 0 < N) (hs : IsUnit (c.mna + (1 / h) • c.D).det)
    (h0 : OnlyZero c h N) : Regular c h N := by
  refine ⟨hs, ?_⟩
  rw [isUnit_iff_ne_zero]
  intro hz
  obtain ⟨v, hv, hv0⟩ := Matrix.exists_mulVec_eq_zero_iff.2 hz
  set MA : Nat → Matrix (Fin m) (Fin m) K := fun _ => (Pss.static c.mna c.D h).1 with hMA
  set MB := (Pss.static c.mna c.D h).2 with hMB
  have hend : Pss.traj MA MB (fun _ => 0) v N = v := by
    rw [Pss.traj_eq]
    have : Pss.mat2 MA MB (fun _ => (0 : Fin m → K)) N = 0 := by
      clear hz hv0 hN h0
      induction N with
      | zero => simp [Pss.mat2]
      | succ k ih => rw [Pss.mat2_succ, ih]; simp
    rw [this, add_zero]
    rw [sub_mulVec, one_mulVec, sub_eq_zero] at hv0
    exact hv0.symm
  have := h0 (fun i => Pss.traj MA MB (fun _ => 0) v (i + 1)) (fun i hi => by
    have hp : Pss.traj MA MB (fun _ => 0) v (before N i + 1) = Pss.traj MA MB (fun _ => 0) v i := by
      unfold before
      by_cases h1 : i = 0
      · subst h1
        rw [if_pos rfl, Nat.sub_add_cancel hN, hend]; rfl
      · rw [if_neg h1, Nat.sub_add_cancel (by omega)]
    simp only [hp]
    show (c.mna + (1 / h) • c.D) *ᵥ (Pss.computeDx (MA i) MB 0 (Pss.traj MA MB (fun _ => 0) v i)) - _ = 0
    simp only [Pss.computeDx, add_zero, mulVec_neg, mulVec_mulVec, hMA, Pss.static]
    rw [← Matrix.mul_assoc, Matrix.mul_nonsing_inv _ hs, Matrix.one_mul]
    simp only [hMB, Pss.static, neg_div, neg_smul, neg_mulVec]
    abel) (N - 1) (by omega)
  simp only [Nat.sub_add_cancel hN] at this
  exact hv (hend.symm.trans this)

/-- the matrix of the brute-force method is regular too -/
theorem onlyZero_bf [IsStrictOrderedRing K] {c : PCirc K m} {h : K} {N : Nat} (hN : 0 < N) (h0 : OnlyZero c h N) :
    IsUnit (Matrix.of fun i j : Fin ((N + 1) * m) => cmat c h (N + 1) i j).det := by
  rw [isUnit_iff_ne_zero]
  intro hz
  obtain ⟨v, hv, hv0⟩ := Matrix.exists_mulVec_eq_zero_iff.2 hz
  set x : Nat → K := fun j => if hj : j < (N + 1) * m then v ⟨j, hj⟩ else 0 with hx
  let c0 : PCirc K m := { c with T := fun _ => 0, J := fun _ => 0, Ts := fun _ => 0 }
  have hres : ∀ i < (N + 1) * m, residuo c0 h (N + 1) x i = 0 := by
    intro i hi
    have h1 : bigT c0 x i = 0 := by simp [bigT, c0]
    have h2 : bigTs c0 i = 0 := by simp [bigTs, c0]
    have := congrFun hv0 ⟨i, hi⟩
    rw [← mulVec_fin] at this
    simp only [residuo, h1, h2, add_zero]
    exact this
  obtain ⟨hp, heq⟩ := (C173_equations c0 h (by omega) x).1 hres
  rw [Nat.add_sub_cancel] at hp
  have hall := h0 (fun i => part m x (if i = 0 then N else i)) (fun i hi => by
    have hb : part m x (if before N i = 0 then N else before N i) = part m x ((if i = 0 then N else i) - 1) := by
      unfold before
      by_cases h1 : i = 0
      · subst h1
        rw [if_pos rfl]
        by_cases h2 : N - 1 = 0
        · have : N = 1 := by omega
          subst this
          simp [hp]
        · simp [h2]
      · simp only [h1, if_false]
        by_cases h2 : i - 1 = 0
        · rw [h2]; simp [hp]
        · simp [h2]
    simp only [hb]
    have := heq (if i = 0 then N else i) (by split <;> omega) (by split <;> omega)
    simpa [c0] using this)
  apply hv
  funext j
  have hm : 0 < m := by
    rcases Nat.eq_zero_or_pos m with rfl | hm
    · have := j.isLt; omega
    · exact hm
  have hj : j.val / m < N + 1 := Nat.div_lt_of_lt_mul (lt_of_lt_of_eq j.isLt (Nat.mul_comm _ _))
  have hpart : part m x (j.val / m) = 0 := by
    by_cases h1 : j.val / m = N
    · have := hall 0 hN
      rw [h1]
      simpa using this
    · by_cases h2 : j.val / m = 0
      · have := hall 0 hN
        rw [h2, hp]
        simpa using this
      · have := hall (j.val / m) (by omega)
        simpa [h2] using this
  have := congrFun hpart ⟨j.val % m, Nat.mod_lt _ hm⟩
  simp only [part, Pi.zero_apply] at this
  rw [Nat.mul_comm, Nat.div_add_mod] at this
  simpa [hx] using this

variable [IsStrictOrderedRing K]

/-- C195: for a linear circuit whose sources have the period of `N` steps, the shooting method with `N` points and the
brute-force method with `N + 1` points report the same solution, from all starting points. -/
theorem C195_methods_agree {c : PCirc K m} (hl : Linear c) {h : K} {N : Nat} (hN : 0 < N) (hr : Regular c h N)
    (hs : c.Ts N = c.Ts 0) (o : Newton.Opts K) {t : Tol K} (hv : 0 ≤ t.ver) (ha : 0 < t.vea) (hi : 0 ≤ t.ier)
    (hb : 0 < t.iea) (nv1 : Nat) {maxIter : Nat} (hm : 4 ≤ maxIter) (x : Nat → Fin m → K) (x' : Nat → K) :
    ∃ y z, shooting o t c h N maxIter x = some (some y) ∧ bfGo o t c h nv1 (N + 1) maxIter x' = some (some z) ∧
      ∀ k, k ≤ N → part m z k = y (k % N) := by
  obtain ⟨y, h1, h2⟩ := C172_linear hl hr o (t := t) (le_min hv hi) (lt_min ha hb) hm x
  have h0 := regular_onlyZero hr
  obtain ⟨z, h3, h4, h5⟩ := C173_linear hl (by omega) (onlyZero_bf hN h0) o hv ha hi hb nv1 (maxIter := maxIter) (by omega) x'
  rw [Nat.add_sub_cancel] at h4
  refine ⟨y, z, h1, h3, ?_⟩
  have key := onlyZero_unique h0 (b := c.Ts) (y := fun i => part m z (if i = 0 then N else i)) (z := y) (fun i hi => by
    have hbz : part m z (if before N i = 0 then N else before N i) = part m z ((if i = 0 then N else i) - 1) := by
      unfold before
      by_cases h1 : i = 0
      · subst h1
        rw [if_pos rfl]
        by_cases h2 : N - 1 = 0
        · have : N = 1 := by omega
          subst this
          simp [h4]
        · simp [h2]
      · simp only [h1, if_false]
        by_cases h2 : i - 1 = 0
        · rw [h2]; simp [h4]
        · simp [h2]
    simp only [hbz]
    have := h5 (if i = 0 then N else i) (by split <;> omega) (by split <;> omega)
    by_cases h1 : i = 0
    · simp only [h1, if_true, hs] at this ⊢; exact this
    · simp only [h1, if_false] at this ⊢; exact this) (fun i hi => h2 i hi)
  intro k hk
  by_cases e : k = N
  · subst e
    rw [Nat.mod_self]
    simpa using key 0 hN
  · rw [Nat.mod_eq_of_lt (by omega)]
    by_cases e0 : k = 0
    · subst e0
      rw [h4]
      simpa using key 0 hN
    · simpa [e0] using key k (by omega)

/-- C195: for a linear circuit with constant sources both methods report the operating point at every point. -/
theorem C195_operating_point {c : PCirc K m} (hl : Linear c) {h : K} {N : Nat} (hN : 0 < N) (hr : Regular c h N)
    {b : Fin m → K} (hb' : ∀ k, c.Ts k = b) {p : Fin m → K} (hp : c.mna *ᵥ p + b = 0)
    (o : Newton.Opts K) {t : Tol K} (hv : 0 ≤ t.ver) (ha : 0 < t.vea) (hi : 0 ≤ t.ier)
    (hb : 0 < t.iea) (nv1 : Nat) {maxIter : Nat} (hm : 4 ≤ maxIter) (x : Nat → Fin m → K) (x' : Nat → K) :
    ∃ y z, shooting o t c h N maxIter x = some (some y) ∧ bfGo o t c h nv1 (N + 1) maxIter x' = some (some z) ∧
      (∀ k, k < N → y k = p) ∧ ∀ k, k ≤ N → part m z k = p := by
  obtain ⟨y, z, h1, h2, h3⟩ := C195_methods_agree hl hN hr (by rw [hb', hb']) o hv ha hi hb nv1 hm x x'
  obtain ⟨y', h1', h2'⟩ := C172_linear hl hr o (t := t) (le_min hv hi) (lt_min ha hb) hm x
  rw [h1] at h1'
  simp only [Option.some.injEq] at h1'
  subst h1'
  have hy : ∀ k, k < N → y k = p := onlyZero_unique (regular_onlyZero hr) (b := c.Ts) h2' (z := fun _ => p) fun i _ => by
    rw [hb', add_mulVec, add_sub_cancel_right]; exact hp
  exact ⟨y, z, h1, h2, hy, fun k hk => by rw [h3 k hk, hy _ (Nat.mod_lt _ hN)]⟩

/-- C195, any circuit: started at an operating point, with constant sources, the shooting method reports the operating point,
if the matrices at the operating point are regular. -/
theorem C195_start {c : PCirc K m} {h : K} {N : Nat} (hN : 0 < N) {b p : Fin m → K} (hb : ∀ k, c.Ts k = b)
    (hp : c.mna *ᵥ p + c.T p + b = 0)
    (hA : IsUnit (c.J p + (c.mna + (1 / h) • c.D)).det)
    (hP : IsUnit (1 - Pss.mat1 (fun _ => c.J p + (c.mna + (1 / h) • c.D)) ((-1 / h) • c.D) N).det)
    (o : Newton.Opts K) {t : Tol K} (hv : 0 ≤ t.ver) (ha : 0 < t.vea) (hi : 0 ≤ t.ier)
    (hb' : 0 < t.iea) {maxIter : Nat} (hm : 3 ≤ maxIter) :
    ∃ y, shooting o t c h N maxIter (fun _ => p) = some (some y) ∧ ∀ k < N, y k = p := by
  have hstep : ∀ x : Nat → Fin m → K, (∀ k < N, x k = p) → ∃ x' dx, shootStep o c h N x = some (x', dx) ∧
      (∀ k < N, x' k = p) ∧ ∀ k < N, dx k = 0 := by
    intro x hx
    have hMA : ∀ i < N, MA c h x i = c.J p + (c.mna + (1 / h) • c.D) := fun i hi => by simp [MA, hx i hi, Pss.static]
    have hT : ∀ i < N, Tass c h N x i = 0 := by
      intro i hi
      have hpr : Pss.prev N i < N := by unfold Pss.prev; split <;> omega
      simp only [Tass, hx i hi, hx _ hpr, hb, neg_div, neg_smul, neg_mulVec]
      rw [← hp]
      abel
    have hmat : ∀ k, k ≤ N → Pss.mat1 (MA c h x) ((-1 / h) • c.D) k =
        Pss.mat1 (fun _ => c.J p + (c.mna + (1 / h) • c.D)) ((-1 / h) • c.D) k := by
      intro k
      induction k with
      | zero => intro _; rfl
      | succ k ih => intro hk; simp only [Pss.mat1, ih (by omega), hMA k (by omega)]
    have hu1 : ∀ i < N, IsUnit (MA c h x i).det := fun i hi => by rw [hMA i hi]; exact hA
    have hu2 : IsUnit (1 - Pss.mat1 (MA c h x) (Pss.static c.mna c.D h).2 N).det := by
      show IsUnit (1 - Pss.mat1 (MA c h x) ((-1 / h) • c.D) N).det
      rw [hmat N le_rfl]; exact hP
    have hdx : ∀ k < N, Pss.dx (MA c h x) (Pss.static c.mna c.D h).2 (Tass c h N x) N k = 0 := fun k hk =>
      (Pss.C54_unique _ _ _ N hN hu1 hu2 (fun _ => 0) (fun j hj => by simp [hT j hj]) k hk).symm
    refine ⟨_, _, (step_eq o c h N x _ _).2 ⟨⟨hu1, hu2⟩, rfl, rfl⟩, fun k hk => ?_, hdx⟩
    simp [hdx k hk, hx k hk]
  have horb : ∀ k, ∃ y, orbit o c h N (fun _ => p) k = some y ∧ ∀ i < N, y i = p := by
    intro k
    induction k with
    | zero => exact ⟨_, rfl, fun _ _ => rfl⟩
    | succ k ih =>
      obtain ⟨y, hy, hyp⟩ := ih
      obtain ⟨x', dx, h1, h2, -⟩ := hstep y hyp
      exact ⟨x', by simp [orbit, hy, h1], h2⟩
  have hsm : ∀ k, SmallAt o t c h N (fun _ => p) k := by
    intro k
    obtain ⟨y, hy, hyp⟩ := horb k
    obtain ⟨x', dx, h1, h2, h3⟩ := hstep y hyp
    refine ⟨y, x', dx, hy, h1, (C172_small t N x' dx (le_min hv hi) (lt_min ha hb')).2 fun i hi' r => ?_⟩
    rw [h3 i hi', Pi.zero_apply, abs_zero]
    exact add_pos_of_nonneg_of_pos (mul_nonneg (le_min hv hi) (wrapper_nonneg _ _)) (lt_min ha hb')
  obtain ⟨y, hy, hyp⟩ := horb 4
  exact ⟨y, (C172_reported o t c h N maxIter _ y).2 ⟨3, le_rfl, hm, hy, fun j _ _ => hsm j, fun k' h3 hk' => by omega⟩, hyp⟩

/-! ### Passive circuits -/

/-- In a passive circuit with one operating point nothing but zero repeats without sources. -/
theorem passive_onlyZero {c : PCirc K m} {h : K} (hh : 0 < h) (N : Nat) {S : Matrix (Fin m) (Fin m) K} (hS : S.det ≠ 0)
    (hsym : (S * c.D)ᵀ = S * c.D) (hst : ∀ v, 0 ≤ v ⬝ᵥ ((S * c.D) *ᵥ v)) (hsta : ∀ v, 0 ≤ v ⬝ᵥ ((S * c.mna) *ᵥ v))
    (hd : c.mna.det ≠ 0) : OnlyZero c h N := by
  intro d hdeq
  set B := S * c.D with hB
  have hbil : ∀ u v : Fin m → K, u ⬝ᵥ (B *ᵥ v) = v ⬝ᵥ (B *ᵥ u) := by
    intro u v
    rw [dotProduct_mulVec, ← mulVec_transpose, hsym, dotProduct_comm]
  have hterm : ∀ i < N, d i ⬝ᵥ ((S * c.mna) *ᵥ d i) + 1 / h * (d i ⬝ᵥ (B *ᵥ (d i - d (before N i)))) = 0 := by
    intro i hi
    have e := congrArg (fun v => d i ⬝ᵥ (S *ᵥ v)) (hdeq i hi)
    simp only [mulVec_zero, dotProduct_zero] at e
    simp only [add_mulVec, Matrix.mulVec_sub, Matrix.mulVec_add, smul_mulVec, Matrix.mulVec_smul, mulVec_mulVec,
      dotProduct_sub, dotProduct_add, dotProduct_smul, smul_eq_mul, ← hB] at e ⊢
    linear_combination e
  have hpol : ∀ u v : Fin m → K, u ⬝ᵥ (B *ᵥ (u - v)) =
      1 / 2 * (u ⬝ᵥ (B *ᵥ u) - v ⬝ᵥ (B *ᵥ v) + (u - v) ⬝ᵥ (B *ᵥ (u - v))) := by
    intro u v
    simp only [mulVec_sub, dotProduct_sub, sub_dotProduct, hbil v u]
    ring
  have hcyc : ∀ f : Nat → K, ∑ i ∈ Finset.range N, f (before N i) = ∑ i ∈ Finset.range N, f i := by
    intro f
    cases N with
    | zero => simp
    | succ k =>
      rw [Finset.sum_range_succ', Finset.sum_range_succ]
      simp [before]
  have hsum : ∑ i ∈ Finset.range N, (d i ⬝ᵥ ((S * c.mna) *ᵥ d i) +
      1 / (2 * h) * ((d i - d (before N i)) ⬝ᵥ (B *ᵥ (d i - d (before N i))))) = 0 := by
    have e1 : ∀ i ∈ Finset.range N, d i ⬝ᵥ ((S * c.mna) *ᵥ d i) +
        1 / (2 * h) * ((d i - d (before N i)) ⬝ᵥ (B *ᵥ (d i - d (before N i)))) =
        1 / (2 * h) * (d (before N i) ⬝ᵥ (B *ᵥ d (before N i))) - 1 / (2 * h) * (d i ⬝ᵥ (B *ᵥ d i)) := by
      intro i hi
      have e := hterm i (Finset.mem_range.1 hi)
      rw [hpol] at e
      have h2 : (1 : K) / (2 * h) = 1 / 2 * (1 / h) := by rw [one_div_mul_one_div]
      rw [h2]
      linear_combination e
    rw [Finset.sum_congr rfl e1, Finset.sum_sub_distrib, hcyc (fun i => 1 / (2 * h) * (d i ⬝ᵥ (B *ᵥ d i))), sub_self]
  have hpos : (0 : K) < 1 / (2 * h) := by positivity
  have hz := (Finset.sum_eq_zero_iff_of_nonneg fun i _ => add_nonneg (hsta _) (mul_nonneg hpos.le (hst _))).1 hsum
  intro i hi
  have e := hz i (Finset.mem_range.2 hi)
  have h0 : (d i - d (before N i)) ⬝ᵥ (B *ᵥ (d i - d (before N i))) = 0 := by
    have a := hsta (d i)
    have b := hst (d i - d (before N i))
    have := mul_nonneg hpos.le b
    have : 1 / (2 * h) * ((d i - d (before N i)) ⬝ᵥ (B *ᵥ (d i - d (before N i)))) = 0 := by linarith
    exact (mul_eq_zero.1 this).resolve_left hpos.ne'
  have hBz : B *ᵥ (d i - d (before N i)) = 0 := Tran.psd_zero hsym hst h0
  have hDz : c.D *ᵥ (d i - d (before N i)) = 0 := by
    apply Matrix.eq_zero_of_mulVec_eq_zero hS
    rw [mulVec_mulVec]; exact hBz
  apply Matrix.eq_zero_of_mulVec_eq_zero hd
  rw [← hdeq i hi, add_mulVec, add_sub_assoc, ← mulVec_sub, smul_mulVec, hDz, smul_zero, add_zero]

theorem passive_step {c : PCirc K m} {h : K} (hh : 0 < h) {S : Matrix (Fin m) (Fin m) K} (hS : S.det ≠ 0)
    (hsym : (S * c.D)ᵀ = S * c.D) (hst : ∀ v, 0 ≤ v ⬝ᵥ ((S * c.D) *ᵥ v)) (hsta : ∀ v, 0 ≤ v ⬝ᵥ ((S * c.mna) *ᵥ v))
    (hd : c.mna.det ≠ 0) : IsUnit (c.mna + (1 / h) • c.D).det := by
  rw [isUnit_iff_ne_zero]
  intro hz
  obtain ⟨v, hv, hv0⟩ := Matrix.exists_mulVec_eq_zero_iff.2 hz
  have hpos : (0 : K) < 1 / h := by positivity
  have e := congrArg (fun w => v ⬝ᵥ (S *ᵥ w)) hv0
  simp only [mulVec_zero, dotProduct_zero, add_mulVec, Matrix.mulVec_add, smul_mulVec, Matrix.mulVec_smul, mulVec_mulVec,
    dotProduct_add, dotProduct_smul, smul_eq_mul] at e
  have h0 : v ⬝ᵥ ((S * c.D) *ᵥ v) = 0 := by
    have a := hsta v
    have := mul_nonneg hpos.le (hst v)
    have : 1 / h * (v ⬝ᵥ ((S * c.D) *ᵥ v)) = 0 := by linarith
    exact (mul_eq_zero.1 this).resolve_left hpos.ne'
  have hDz : c.D *ᵥ v = 0 := by
    apply Matrix.eq_zero_of_mulVec_eq_zero hS
    rw [mulVec_mulVec]; exact Tran.psd_zero hsym hst h0
  apply hv
  apply Matrix.eq_zero_of_mulVec_eq_zero hd
  rw [← hv0, add_mulVec, smul_mulVec, hDz, smul_zero, add_zero]

/-- C196, the equations: for a passive circuit with one operating point both methods always report a solution: for every step,
number of points, starting point and all sources. -/
theorem C196_net {c : PCirc K m} (hl : Linear c) {h : K} (hh : 0 < h) {N : Nat} (hN : 0 < N) {S : Matrix (Fin m) (Fin m) K}
    (hS : S.det ≠ 0) (hsym : (S * c.D)ᵀ = S * c.D) (hst : ∀ v, 0 ≤ v ⬝ᵥ ((S * c.D) *ᵥ v))
    (hsta : ∀ v, 0 ≤ v ⬝ᵥ ((S * c.mna) *ᵥ v)) (hd : c.mna.det ≠ 0)
    (o : Newton.Opts K) {t : Tol K} (hv : 0 ≤ t.ver) (ha : 0 < t.vea) (hi : 0 ≤ t.ier)
    (hb : 0 < t.iea) (nv1 : Nat) {maxIter : Nat} (hm : 4 ≤ maxIter) (x : Nat → Fin m → K) (x' : Nat → K) :
    (∃ y, shooting o t c h N maxIter x = some (some y) ∧
      ∀ i < N, (c.mna + (1 / h) • c.D) *ᵥ y i - ((1 / h) • c.D) *ᵥ y (before N i) + c.Ts i = 0) ∧
    (∃ z, bfGo o t c h nv1 (N + 1) maxIter x' = some (some z) ∧ part m z 0 = part m z N ∧
      ∀ k, 1 ≤ k → k ≤ N →
        (c.mna + (1 / h) • c.D) *ᵥ part m z k - ((1 / h) • c.D) *ᵥ part m z (k - 1) + c.Ts k = 0) := by
  have h0 := passive_onlyZero hh N hS hsym hst hsta hd
  have hr := onlyZero_regular hN (passive_step hh hS hsym hst hsta hd) h0
  refine ⟨C172_linear hl hr o (le_min hv hi) (lt_min ha hb) hm x, ?_⟩
  obtain ⟨z, h1, h2, h3⟩ := C173_linear hl (by omega) (onlyZero_bf hN h0) o hv ha hi hb nv1 (maxIter := maxIter) (by omega) x'
  exact ⟨z, h1, h2, fun k a b => h3 k a (by omega)⟩

end

/-! ### Circuits -/

/-- what the periodic analyses use of a circuit of linear elements: the reduced matrices and the sources -/
def circOf (m : Nat) (s : Mna.Sys ℝ) (D : Mna.Mat ℝ) (Ts : Nat → Fin m → ℝ) : PCirc ℝ m :=
  ⟨Rlc.reduce m s.M, Rlc.reduce m D, fun _ => 0, fun _ => 0, Ts, []⟩

/-- C196: resistors, capacitors, coils and independent sources with positive values and one operating point: both periodic
steady state analyses report a solution of their equations, for every step, number of points, starting point and all
waveforms of the sources. -/
theorem C196_passive {nv m : Nat} {circ : List (Elem ℝ)} {s : Mna.Sys ℝ} {D : Mna.Mat ℝ} {cmin : ℝ} (hnv : 0 < nv)
    (he : ∀ e ∈ circ, Mna.NodesLt nv e) (hp : ∀ e ∈ circ, Converge.Linear e) (hpos : ∀ e ∈ circ, Rlc.Positive e)
    (h : Mna.generate circ nv = .ok s) (hm : s.size = m + 1) (hd : Dyn.generateD circ nv (m + 1) cmin = .ok D)
    (hc : 0 ≤ cmin) (hsym : ∀ x y, Rlc.magForm circ nv x y = Rlc.magForm circ nv y x)
    (hmag : ∀ x, 0 ≤ Rlc.magForm circ nv x x) (hop : (Rlc.reduce m s.M).det ≠ 0) (Ts : Nat → Fin m → ℝ)
    {step : ℝ} (hs : 0 < step) {N : Nat} (hN : 0 < N) (o : Newton.Opts ℝ) {t : Tol ℝ} (hv : 0 ≤ t.ver) (ha : 0 < t.vea)
    (hi : 0 ≤ t.ier) (hb : 0 < t.iea) {maxIter : Nat} (hmi : 4 ≤ maxIter) (x : Nat → Fin m → ℝ) (x' : Nat → ℝ) :
    (∃ y, shooting o t (circOf m s D Ts) step N maxIter x = some (some y) ∧
      ∀ i < N, (Rlc.reduce m s.M + (1 / step) • Rlc.reduce m D) *ᵥ y i
        - ((1 / step) • Rlc.reduce m D) *ᵥ y (before N i) + Ts i = 0) ∧
    (∃ z, bfGo o t (circOf m s D Ts) step (nv - 1) (N + 1) maxIter x' = some (some z) ∧ part m z 0 = part m z N ∧
      ∀ k, 1 ≤ k → k ≤ N → (Rlc.reduce m s.M + (1 / step) • Rlc.reduce m D) *ᵥ part m z k
        - ((1 / step) • Rlc.reduce m D) *ᵥ part m z (k - 1) + Ts k = 0) := by
  have hP := Settle.passive (gmin := 0) hnv he hp hpos h hm hd hc le_rfl hsym hmag (fun _ => 0)
  exact C196_net (c := circOf m s D Ts) ⟨fun _ => rfl, fun _ => rfl, rfl⟩ hs hN hP.regular hP.sym hP.store hP.static hop o hv ha
    hi hb (nv - 1) hmi x x'

/-! ### Examples -/

/-- a resistor and a capacitor driven by a current that repeats after two points -/
def two : PCirc ℚ 1 := ⟨!![1], !![1], fun _ => 0, fun _ => 0, fun k => if k % 2 = 1 then ![3] else 0, []⟩

theorem two_linear : Linear two := ⟨fun _ => rfl, fun _ => rfl, rfl⟩

theorem two_onlyZero (N : Nat) : OnlyZero two 1 N := by
  refine passive_onlyZero one_pos N (S := 1) (by simp) (by ext i j; fin_cases i; fin_cases j; rfl) (fun v => ?_) (fun v => ?_)
    (by simp [two])
  all_goals
    simp only [Matrix.one_mul, two, dotProduct, Matrix.mulVec, Finset.univ_unique, Fin.default_eq_zero, Finset.sum_singleton]
    simpa using mul_self_nonneg (v 0)

theorem two_regular {N : Nat} (hN : 0 < N) : Regular two 1 N :=
  onlyZero_regular hN (by rw [isUnit_iff_ne_zero, Matrix.det_fin_one]; simp [two]) (two_onlyZero N)

/-- with two points (shooting) and three points (brute force) both find −1, −2, −1, … -/
example (o : Newton.Opts ℚ) (x : Nat → Fin 1 → ℚ) (x' : Nat → ℚ) : ∃ y z,
    shooting o ⟨1 / 1000, 1 / 1000000, 1 / 1000, 1 / 1000000000⟩ two 1 2 100 x = some (some y) ∧
    bfGo o ⟨1 / 1000, 1 / 1000000, 1 / 1000, 1 / 1000000000⟩ two 1 1 3 100 x' = some (some z) ∧
    y 0 = ![-1] ∧ y 1 = ![-2] ∧ ∀ k, k ≤ 2 → part 1 z k = y (k % 2) := by
  obtain ⟨y, z, h1, h2, h3⟩ := C195_methods_agree two_linear (by omega) (two_regular (N := 2) (by omega)) rfl o
    (t := ⟨1 / 1000, 1 / 1000000, 1 / 1000, 1 / 1000000000⟩) (by norm_num) (by norm_num) (by norm_num) (by norm_num) 1
    (maxIter := 100) (by omega) x x'
  obtain ⟨y', h1', h2'⟩ := C172_linear two_linear (two_regular (N := 2) (by omega)) o
    (t := ⟨1 / 1000, 1 / 1000000, 1 / 1000, 1 / 1000000000⟩) (by norm_num) (by norm_num) (maxIter := 100) (by omega) x
  rw [h1] at h1'
  simp only [Option.some.injEq] at h1'
  subst h1'
  have e0 := congrFun (h2' 0 (by omega)) 0
  have e1 := congrFun (h2' 1 (by omega)) 0
  simp [two, dotProduct] at e0 e1
  refine ⟨y, z, h1, h2, ?_, ?_, h3⟩ <;> (funext i; fin_cases i; simp; linarith)

/-- C195 fails for equal arguments: both methods with three points (two steps, the period of the source) report different
solutions, at all points. -/
theorem C195_same_points_refuted (o : Newton.Opts ℚ) (x : Nat → Fin 1 → ℚ) (x' : Nat → ℚ) :
    (∀ k, two.Ts (k + 2) = two.Ts k) ∧ ∃ y z,
    shooting o ⟨1 / 1000, 1 / 1000000, 1 / 1000, 1 / 1000000000⟩ two 1 3 100 x = some (some y) ∧
    bfGo o ⟨1 / 1000, 1 / 1000000, 1 / 1000, 1 / 1000000000⟩ two 1 1 3 100 x' = some (some z) ∧
    (y 0 = ![-3 / 7] ∧ y 1 = ![-12 / 7] ∧ y 2 = ![-6 / 7]) ∧ part 1 z 0 = ![-1] ∧ part 1 z 1 = ![-2] ∧ part 1 z 2 = ![-1] := by
  refine ⟨fun k => by simp [two], ?_⟩
  obtain ⟨y, h1, h2⟩ := C172_linear two_linear (two_regular (N := 3) (by omega)) o
    (t := ⟨1 / 1000, 1 / 1000000, 1 / 1000, 1 / 1000000000⟩) (by norm_num) (by norm_num) (maxIter := 100) (by omega) x
  obtain ⟨z, h3, h4, h5⟩ := C173_linear two_linear (by omega) (onlyZero_bf (N := 2) (by omega) (two_onlyZero 2)) o
    (t := ⟨1 / 1000, 1 / 1000000, 1 / 1000, 1 / 1000000000⟩)
    (by norm_num) (by norm_num) (by norm_num) (by norm_num) 1 (maxIter := 100) (by omega) x'
  have e0 := congrFun (h2 0 (by omega)) 0
  have e1 := congrFun (h2 1 (by omega)) 0
  have e2 := congrFun (h2 2 (by omega)) 0
  have f0 := congrFun h4 0
  have f1 := congrFun (h5 1 (by omega) (by omega)) 0
  have f2 := congrFun (h5 2 (by omega) (by omega)) 0
  simp [two, dotProduct] at e0 e1 e2 f0 f1 f2
  refine ⟨y, z, h1, h3, ⟨?_, ?_, ?_⟩, ?_, ?_, ?_⟩ <;> (funext i; fin_cases i; simp; linarith)

/-- a constant current of 2 A into 1 Ω and 1 F: both report the operating point, −2 V -/
example (o : Newton.Opts ℚ) (x : Nat → Fin 1 → ℚ) (x' : Nat → ℚ) (N : Nat) (hN : 0 < N) : ∃ y z,
    shooting o ⟨1 / 1000, 1 / 1000000, 1 / 1000, 1 / 1000000000⟩ { two with Ts := fun _ => ![2] } 1 N 100 x = some (some y) ∧
    bfGo o ⟨1 / 1000, 1 / 1000000, 1 / 1000, 1 / 1000000000⟩ { two with Ts := fun _ => ![2] } 1 1 (N + 1) 100 x'
      = some (some z) ∧ (∀ k, k < N → y k = ![-2]) ∧ ∀ k, k ≤ N → part 1 z k = ![-2] :=
  C195_operating_point (c := { two with Ts := fun _ => ![2] }) (b := ![2]) ⟨fun _ => rfl, fun _ => rfl, rfl⟩ hN
    ⟨(two_regular hN).step, (two_regular hN).period⟩ (fun _ => rfl)
    (by funext i; fin_cases i; simp [two]) o (by norm_num) (by norm_num) (by norm_num) (by norm_num) 1 (by omega) x x'

/-- a non-linear resistor with `i = v³` beside 1 Ω and 1 F, driven by 2 A: the operating point is 1 V -/
example (o : Newton.Opts ℚ) : ∃ y,
    shooting o ⟨1 / 1000, 1 / 1000000, 1 / 1000, 1 / 1000000000⟩
      ⟨!![1], !![1], fun v => ![v 0 ^ 3], fun v => !![3 * v 0 ^ 2], fun _ => ![-2], []⟩ 1 1 100 (fun _ => ![1]) = some (some y) ∧
    ∀ k < 1, y k = ![1] := by
  have hi : (!![5] : Matrix (Fin 1) (Fin 1) ℚ)⁻¹ = !![1 / 5] := by
    apply Matrix.inv_eq_right_inv
    ext i j
    fin_cases i
    fin_cases j
    simp [Matrix.mul_apply]
  have hA : (!![3 * (![1] : Fin 1 → ℚ) 0 ^ 2] + (!![1] + (1 / (1 : ℚ)) • !![1]) : Matrix (Fin 1) (Fin 1) ℚ) = !![5] := by
    ext i j
    fin_cases i
    fin_cases j
    simp
    norm_num
  refine C195_start (b := ![-2]) (by omega) (fun _ => rfl) ?_ ?_ ?_ o (by norm_num) (by norm_num) (by norm_num) (by norm_num)
    (by omega)
  · funext i
    fin_cases i
    simp [Matrix.vecHead]
    norm_num
  · simp only [hA]
    rw [isUnit_iff_ne_zero, Matrix.det_fin_one]
    simp
  · simp only [hA]
    rw [isUnit_iff_ne_zero, Matrix.det_fin_one]
    simp [Pss.mat1, hi]
    norm_num

/-- a resistor, a capacitor and a source meet the hypotheses on circuits -/
example : let f : List (Elem ℝ) := [.I "I1" 0 1 { dc := some 1 }, .R "R1" 1 0 1, .C "C1" 1 0 1 none]
    (∀ e ∈ f, Mna.NodesLt 2 e) ∧ (∀ e ∈ f, Converge.Linear e) ∧ (∀ e ∈ f, Rlc.Positive e) ∧ (∀ x y, Rlc.magForm f 2 x y = 0) ∧
    ∃ s D, Mna.generate f 2 = .ok s ∧ s.size = 1 + 1 ∧ Dyn.generateD f 2 (1 + 1) 0 = .ok D ∧ (Rlc.reduce 1 s.M).det ≠ 0 := by
  refine ⟨?_, ?_, ?_, ?_, _, _, rfl, rfl, rfl, ?_⟩
  · simp [Mna.NodesLt]
  · simp [Converge.Linear]
  · simp [Rlc.Positive]
  · intro x y
    refine Settle.no_mag ?_ 2 x y
    simp [Settle.NoCoil]
  · rw [Matrix.det_fin_one]
    simp [Rlc.reduce, Mna.Mat.add, Mna.Mat.put]

end Verif.PssRun
