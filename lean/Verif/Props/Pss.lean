import Verif.Model.Pss
import Mathlib.Algebra.BigOperators.Group.List.Basic
import Mathlib.Algebra.Order.Field.Rat
import Mathlib.Data.Rat.Lemmas
import Mathlib.Tactic.Ring
import Mathlib.Tactic.Abel
import Mathlib.Tactic.LinearCombination
import Mathlib.Tactic.NormNum
import Mathlib.LinearAlgebra.Matrix.Notation

/-!
C54: the update of the shooting method. C55: the matrix of the brute-force method. C98: the period
of the solutions of the shooting method. C99: the residual of the brute-force method.
-/

namespace Verif.Pss
open Matrix

section shooting
variable {n : Type} [Fintype n] [DecidableEq n] {K : Type} [Field K]

/-- The recursion through the period, starting from `y`. -/
noncomputable def traj (MA : Nat → Matrix n n K) (MB : Matrix n n K) (T : Nat → n → K) (y : n → K) :
    Nat → n → K
  | 0 => y
  | k + 1 => computeDx (MA k) MB (T k) (traj MA MB T y k)

/-- `mat2` with another number of rounds. -/
noncomputable def partSum (MA : Nat → Matrix n n K) (MB : Matrix n n K) (T : Nat → n → K) (k : Nat) :
    n → K := mat2 MA MB T k

theorem neg_mulVec_list (A : Matrix n n K) (l : List (n → K)) :
    (l.map (fun v => -(A *ᵥ v))).sum = -(A *ᵥ l.sum) := by
  induction l with
  | nil => simp
  | cons a t ih =>
    simp only [List.map_cons, List.sum_cons, ih, Matrix.mulVec_add]
    abel

theorem mat2_succ (MA : Nat → Matrix n n K) (MB : Matrix n n K) (T : Nat → n → K) (k : Nat) :
    mat2 MA MB T (k + 1) = -((MA k)⁻¹ *ᵥ (MB *ᵥ mat2 MA MB T k + T k)) := by
  unfold mat2
  rw [List.range_succ, List.map_append, List.sum_append]
  simp only [List.map_cons, List.map_nil, List.sum_cons, List.sum_nil, add_zero]
  have h1 : (List.range k).map (fun i => mat3 MA MB T i (k + 1 - (i + 1))) =
      ((List.range k).map (fun i => mat3 MA MB T i (k - (i + 1)))).map
        (fun v => -(((MA k)⁻¹ * MB) *ᵥ v)) := by
    rw [List.map_map]
    apply List.map_congr_left
    intro i hi
    have hik : i < k := List.mem_range.1 hi
    have e : k + 1 - (i + 1) = (k - (i + 1)) + 1 := by omega
    have e2 : i + 1 + (k - (i + 1)) = k := by omega
    simp only [Function.comp, e, mat3, e2, Matrix.mulVec_mulVec]
  rw [h1, neg_mulVec_list]
  simp only [Nat.sub_self, mat3, Matrix.mulVec_add, Matrix.mulVec_mulVec]
  abel

theorem traj_eq (MA : Nat → Matrix n n K) (MB : Matrix n n K) (T : Nat → n → K) (y : n → K)
    (k : Nat) : traj MA MB T y k = mat1 MA MB k *ᵥ y + mat2 MA MB T k := by
  induction k with
  | zero => simp [traj, mat1, mat2]
  | succ k ih =>
    rw [mat2_succ]
    simp only [traj, mat1, computeDx, ih, Matrix.neg_mulVec, Matrix.mulVec_add,
      Matrix.mulVec_mulVec]
    abel

/-- The update of the last point is reproduced by the recursion. -/
theorem traj_closes (MA : Nat → Matrix n n K) (MB : Matrix n n K) (T : Nat → n → K) (points : Nat)
    (hP : IsUnit (1 - mat1 MA MB points).det) :
    traj MA MB T (dxN MA MB T points) points = dxN MA MB T points := by
  rw [traj_eq]
  have h : (1 - mat1 MA MB points) *ᵥ dxN MA MB T points = mat2 MA MB T points := by
    unfold dxN
    rw [Matrix.mulVec_mulVec, Matrix.mul_nonsing_inv _ hP, Matrix.one_mulVec]
  rw [Matrix.sub_mulVec, Matrix.one_mulVec] at h
  rw [← h]
  abel

theorem dxUpTo_eq (MA : Nat → Matrix n n K) (MB : Matrix n n K) (T : Nat → n → K) (points i : Nat) :
    dxUpTo MA MB T points i = traj MA MB T (dxN MA MB T points) (i + 1) := by
  induction i with
  | zero => rfl
  | succ i ih => simp only [dxUpTo, ih, traj]

theorem dx_eq (MA : Nat → Matrix n n K) (MB : Matrix n n K) (T : Nat → n → K) (points i : Nat)
    (hP : IsUnit (1 - mat1 MA MB points).det) :
    dx MA MB T points i = traj MA MB T (dxN MA MB T points) (i + 1) := by
  unfold dx
  split
  · rename_i h
    rw [h, traj_closes MA MB T points hP]
  · exact dxUpTo_eq MA MB T points i

/-- C54: the updates solve the linearised periodic system, for any number of points. -/
theorem C54_update (MA : Nat → Matrix n n K) (MB : Matrix n n K) (T : Nat → n → K) (points : Nat)
    (hA : ∀ i < points, IsUnit (MA i).det) (hP : IsUnit (1 - mat1 MA MB points).det)
    (i : Nat) (hi : i < points) :
    MA i *ᵥ dx MA MB T points i +
      MB *ᵥ dx MA MB T points (if i = 0 then points - 1 else i - 1) + T i = 0 := by
  have hprev : dx MA MB T points (if i = 0 then points - 1 else i - 1) =
      traj MA MB T (dxN MA MB T points) i := by
    split
    · rename_i h0
      subst h0
      rw [dx_eq _ _ _ _ _ hP, show points - 1 + 1 = points from by omega,
        traj_closes _ _ _ _ hP]
      rfl
    · rw [dx_eq _ _ _ _ _ hP, show i - 1 + 1 = i from by omega]
  rw [hprev, dx_eq _ _ _ _ _ hP]
  simp only [traj, computeDx, Matrix.mulVec_neg, Matrix.mulVec_mulVec,
    Matrix.mul_nonsing_inv _ (hA i hi), Matrix.one_mulVec]
  abel

/-- C54: the updates are the only solution of that system. -/
theorem C54_unique (MA : Nat → Matrix n n K) (MB : Matrix n n K) (T : Nat → n → K) (points : Nat)
    (h0 : 0 < points)
    (hA : ∀ i < points, IsUnit (MA i).det) (hP : IsUnit (1 - mat1 MA MB points).det)
    (d : Nat → n → K)
    (hd : ∀ i < points, MA i *ᵥ d i + MB *ᵥ d (if i = 0 then points - 1 else i - 1) + T i = 0) :
    ∀ i < points, d i = dx MA MB T points i := by
  have step : ∀ i < points, d i = computeDx (MA i) MB (T i) (d (if i = 0 then points - 1 else i - 1)) := by
    intro i hi
    have h := hd i hi
    have h2 : MA i *ᵥ d i = -(MB *ᵥ d (if i = 0 then points - 1 else i - 1) + T i) := by
      rw [eq_neg_iff_add_eq_zero, ← h]
      abel
    have h3 : (MA i)⁻¹ *ᵥ (MA i *ᵥ d i) = d i := by
      rw [Matrix.mulVec_mulVec, Matrix.nonsing_inv_mul _ (hA i hi), Matrix.one_mulVec]
    rw [← h3, h2, Matrix.mulVec_neg]
    rfl
  have htr : ∀ k, k ≤ points → traj MA MB T (d (points - 1)) k =
      d (if k = 0 then points - 1 else k - 1) := by
    intro k
    induction k with
    | zero => intro _; rfl
    | succ k ih =>
      intro hk
      rw [if_neg (Nat.succ_ne_zero k), Nat.add_sub_cancel, step k (by omega), ← ih (by omega)]
      rfl
  have hlast : d (points - 1) = dxN MA MB T points := by
    have h1 := htr points (le_refl _)
    rw [if_neg (by omega), traj_eq] at h1
    have h2 : (1 - mat1 MA MB points) *ᵥ d (points - 1) = mat2 MA MB T points := by
      rw [Matrix.sub_mulVec, Matrix.one_mulVec, sub_eq_iff_eq_add, add_comm]
      exact h1.symm
    unfold dxN
    rw [← h2, Matrix.mulVec_mulVec, Matrix.nonsing_inv_mul _ hP, Matrix.one_mulVec]
  intro i hi
  rw [dx_eq _ _ _ _ _ hP, ← hlast, htr (i + 1) hi, if_neg (by omega), Nat.add_sub_cancel]

/-- C54, linear circuits: a full step of the method lands on a solution of the discretised
periodic equations. -/
theorem C54_linear_step (mna D : Matrix n n K) (h : K) (Ts : Nat → n → K) (points : Nat)
    (x : Nat → n → K) (hA : IsUnit (static mna D h).1.det)
    (hP : IsUnit (1 - mat1 (fun _ => (static mna D h).1) (static mna D h).2 points).det)
    (i : Nat) (hi : i < points) :
    let T := tass mna D h Ts points x
    let x' := fun i => x i + dx (fun _ => (static mna D h).1) (static mna D h).2 T points i
    tass mna D h Ts points x' i = 0 := by
  have := C54_update (fun _ => (static mna D h).1) (static mna D h).2 (tass mna D h Ts points x)
    points (fun _ _ => hA) hP i hi
  simp only [static, tass, prev, Matrix.mulVec_add, Matrix.add_mulVec] at this ⊢
  rw [← this]
  abel

/-- C98: a solution of the equations of the shooting method, repeated with the number of points as
its period, satisfies implicit Euler everywhere. With `points` points from 0 to the period, the
repetition time is `points` steps, one more than the period (`C98_period_refuted`). Missing: the
period asked for. -/
theorem C98_repeats_partial (mna D : Matrix n n K) (h : K) (Ts : Nat → n → K) (points : Nat)
    (h0 : 0 < points) (x : Nat → n → K) (hx : ∀ i < points, tass mna D h Ts points x i = 0)
    (k : Nat) :
    (mna + (1 / h) • D) *ᵥ x ((k + 1) % points) - ((1 / h) • D) *ᵥ x (k % points) +
      Ts ((k + 1) % points) = 0 := by
  have hlt : (k + 1) % points < points := Nat.mod_lt _ h0
  have hprev : prev points ((k + 1) % points) = k % points := by
    unfold prev
    have hk : k % points < points := Nat.mod_lt _ h0
    by_cases hc : k % points + 1 = points
    · have : (k + 1) % points = 0 := by
        rw [Nat.add_mod]
        by_cases h1 : points = 1
        · subst h1; simp [Nat.mod_one]
        · rw [Nat.mod_eq_of_lt (show 1 < points by omega), hc, Nat.mod_self]
      rw [if_pos this]; omega
    · have : (k + 1) % points = k % points + 1 := by
        rw [Nat.add_mod, Nat.mod_eq_of_lt (show 1 < points by omega)]
        exact Nat.mod_eq_of_lt (by omega)
      rw [if_neg (by omega), this]; omega
  have := hx _ hlt
  unfold tass at this
  rw [hprev] at this
  rw [← this]
  simp only [Matrix.add_mulVec, neg_div, neg_smul, Matrix.neg_mulVec]
  abel

/-- The equations of a scalar circuit, three points. -/
theorem scalar_tass (m d h : ℚ) (Ts x : Nat → Unit → ℚ) (points i : Nat) :
    tass (Matrix.of fun (_ _ : Unit) => m) (Matrix.of fun _ _ => d) h Ts points x i =
      fun _ => 1 / h * d * x i () + m * x i () + -1 / h * d * x (prev points i) () + Ts i () := by
  funext u
  simp [tass, Matrix.mulVec, dotProduct, Matrix.smul_apply]

/-- C98 is false: with sources that have the period, the solution at the end of the period differs
from the one at its beginning. (Conductance and capacitance 1, step 1, period 2, source currents
0, 7, 0 at the three points.) -/
theorem C98_period_refuted :
    ¬ ∀ (mna D : Matrix Unit Unit ℚ) (h : ℚ) (Ts x : Nat → Unit → ℚ) (points : Nat),
      0 < h → 2 ≤ points → Ts (points - 1) = Ts 0 →
      (∀ i < points, tass mna D h Ts points x i = 0) → x (points - 1) = x 0 := by
  intro hall
  have := hall (Matrix.of fun _ _ => 1) (Matrix.of fun _ _ => 1) 1 (fun i _ => if i = 1 then 7 else 0)
    (fun i _ => if i = 0 then -1 else if i = 1 then -4 else -2) 3 (by norm_num) (by norm_num)
    (by simp) (by
      intro i hi
      rw [scalar_tass]
      funext u
      have : i = 0 ∨ i = 1 ∨ i = 2 := by omega
      rcases this with rfl | rfl | rfl <;> simp [prev] <;> norm_num)
  have := congrFun this ()
  norm_num at this

end shooting

/-! ### Brute force -/

section bruteForce
variable {K : Type} [Field K]

/-- The blocks of the matrix as they should be. -/
def block (mna D : Nat → Nat → K) (h : K) (points li ci r c : Nat) : K :=
  match blockAt mna D h points li ci with
  | some B => B r c
  | none => 0

omit [Field K] in
theorem setBlock_at (n li ci li' ci' : Nat) (M B : Nat → Nat → K) (r c : Nat) (hr : r < n)
    (hc : c < n) : setBlock n (li * n) (ci * n) M B (li' * n + r) (ci' * n + c) =
      if li' = li ∧ ci' = ci then B r c else M (li' * n + r) (ci' * n + c) := by
  have key : ∀ a b t, t < n → (a * n ≤ b * n + t ∧ b * n + t < a * n + n ↔ b = a) := by
    intro a b t ht
    constructor
    · rintro ⟨h1, h2⟩
      have h3 : a ≤ b := by
        by_contra hc
        have : (b + 1) * n ≤ a * n := Nat.mul_le_mul_right n (by omega)
        have e : (b + 1) * n = b * n + n := by ring
        omega
      have h4 : b ≤ a := by
        by_contra hc
        have : (a + 1) * n ≤ b * n := Nat.mul_le_mul_right n (by omega)
        have e : (a + 1) * n = a * n + n := by ring
        omega
      omega
    · rintro rfl
      omega
  unfold setBlock
  by_cases h : li' = li ∧ ci' = ci
  · obtain ⟨rfl, rfl⟩ := h
    rw [if_pos (by omega), if_pos ⟨rfl, rfl⟩]
    congr 1 <;> omega
  · rw [if_neg h, if_neg]
    rintro ⟨h1, h2, h3, h4⟩
    exact h ⟨(key li li' r hr).1 ⟨h1, h2⟩, (key ci ci' c hc).1 ⟨h3, h4⟩⟩

theorem putRow_at (mna D : Nat → Nat → K) (h : K) (n points li : Nat) (cs : List Nat) :
    ∀ (M : Nat → Nat → K) (li' ci' r c : Nat), r < n → c < n → cs.Nodup →
    (cs.foldl (putBlock mna D h n points li) M) (li' * n + r) (ci' * n + c) =
      if li' = li ∧ ci' ∈ cs then
        (match blockAt mna D h points li ci' with
          | some B => B r c
          | none => M (li' * n + r) (ci' * n + c))
      else M (li' * n + r) (ci' * n + c) := by
  induction cs with
  | nil => intro M li' ci' r c _ _ _; simp
  | cons ci cs ih =>
    intro M li' ci' r c hr hc hnd
    have hnd' := List.nodup_cons.1 hnd
    rw [List.foldl_cons, ih _ _ _ _ _ hr hc hnd'.2]
    have hput : putBlock mna D h n points li M ci (li' * n + r) (ci' * n + c) =
        if li' = li ∧ ci' = ci then
          (match blockAt mna D h points li ci with
            | some B => B r c
            | none => M (li' * n + r) (ci' * n + c))
        else M (li' * n + r) (ci' * n + c) := by
      unfold putBlock
      cases hb : blockAt mna D h points li ci with
      | none => simp
      | some B => simp only [setBlock_at n li ci li' ci' M B r c hr hc]
    rw [hput]
    by_cases h1 : li' = li
    · by_cases h2 : ci' = ci
      · subst h2
        rw [if_neg (fun hh => hnd'.1 hh.2), if_pos ⟨h1, rfl⟩, if_pos ⟨h1, by simp⟩]
      · by_cases h3 : ci' ∈ cs
        · simp [h1, h2, h3]
        · simp [h1, h2, h3]
    · simp [h1]

theorem buildRows_at (mna D : Nat → Nat → K) (h : K) (n points : Nat) (ls : List Nat) :
    ∀ (M : Nat → Nat → K) (li ci r c : Nat), r < n → c < n → ci < points → ls.Nodup →
    (ls.foldl (putRow mna D h n points) M) (li * n + r) (ci * n + c) =
      if li ∈ ls then
        (match blockAt mna D h points li ci with
          | some B => B r c
          | none => M (li * n + r) (ci * n + c))
      else M (li * n + r) (ci * n + c) := by
  induction ls with
  | nil => intro M li ci r c _ _ _ _; simp
  | cons l ls ih =>
    intro M li ci r c hr hc hci hnd
    have hnd' := List.nodup_cons.1 hnd
    rw [List.foldl_cons, ih _ _ _ _ _ hr hc hci hnd'.2]
    have hrow : putRow mna D h n points M l (li * n + r) (ci * n + c) =
        if li = l then
          (match blockAt mna D h points l ci with
            | some B => B r c
            | none => M (li * n + r) (ci * n + c))
        else M (li * n + r) (ci * n + c) := by
      unfold putRow
      rw [putRow_at mna D h n points l _ M li ci r c hr hc List.nodup_range]
      simp [hci]
    rw [hrow]
    by_cases h1 : li = l
    · subst h1
      rw [if_neg hnd'.1, if_pos rfl, if_pos (by simp)]
    · simp [h1]

/-- Every entry of the matrix. -/
theorem C55_entries (mna D : Nat → Nat → K) (h : K) (n points li ci r c : Nat) (hr : r < n)
    (hc : c < n) (hl : li < points) (hci : ci < points) :
    buildCMAT mna D h n points (li * n + r) (ci * n + c) = block mna D h points li ci r c := by
  unfold buildCMAT
  rw [buildRows_at mna D h n points _ _ li ci r c hr hc hci List.nodup_range]
  simp [hl, block]

theorem sum_range_mul (n p : Nat) (f : Nat → K) :
    ((List.range (p * n)).map f).sum =
      ((List.range p).map (fun b => ((List.range n).map (fun c => f (b * n + c))).sum)).sum := by
  induction p with
  | zero => simp
  | succ p ih =>
    rw [show (p + 1) * n = p * n + n from by ring, List.range_add, List.map_append,
      List.sum_append, ih, List.range_succ, List.map_append, List.sum_append]
    simp only [List.map_map, List.map_cons, List.map_nil, List.sum_cons, List.sum_nil, add_zero]
    rfl

theorem sum_single (p b : Nat) (hb : b < p) (f : Nat → K) (h : ∀ i, i < p → i ≠ b → f i = 0) :
    ((List.range p).map f).sum = f b := by
  induction p with
  | zero => omega
  | succ p ih =>
    rw [List.range_succ, List.map_append, List.sum_append]
    simp only [List.map_cons, List.map_nil, List.sum_cons, List.sum_nil, add_zero]
    by_cases hbp : b = p
    · subst hbp
      have : ((List.range b).map f).sum = 0 := by
        apply List.sum_eq_zero
        intro x hx
        obtain ⟨i, hi, rfl⟩ := List.mem_map.1 hx
        have := List.mem_range.1 hi
        exact h i (by omega) (by omega)
      rw [this, zero_add]
    · rw [ih (by omega) (fun i hi hne => h i (by omega) hne), h p (by omega) (fun h => hbp h.symm),
        add_zero]

theorem sum_pair (p a b : Nat) (ha : a < p) (hb : b < p) (hab : a ≠ b) (f : Nat → K)
    (h : ∀ i, i < p → i ≠ a → i ≠ b → f i = 0) : ((List.range p).map f).sum = f a + f b := by
  have h1 : ((List.range p).map f).sum =
      ((List.range p).map (fun i => if i = a then f a else 0)).sum +
      ((List.range p).map (fun i => if i = b then f b else 0)).sum := by
    rw [← List.sum_map_add]
    congr 1
    apply List.map_congr_left
    intro i hi
    have hip := List.mem_range.1 hi
    by_cases h1 : i = a
    · subst h1
      simp [hab]
    · by_cases h2 : i = b
      · subst h2
        simp [h1]
      · simp [h1, h2, h i hip h1 h2]
  rw [h1, sum_single p a ha _ (fun i _ hne => if_neg hne),
    sum_single p b hb _ (fun i _ hne => if_neg hne)]
  simp

/-- Product of an `n` by `n` matrix with the block `b` of a stacked vector. -/
def blockMul (n : Nat) (M : Nat → Nat → K) (x : Nat → K) (b r : Nat) : K :=
  ((List.range n).map (fun c => M r c * x (b * n + c))).sum

theorem mulVec_blocks (mna D : Nat → Nat → K) (h : K) (n points li r : Nat) (x : Nat → K)
    (hr : r < n) (hl : li < points) :
    mulVec (points * n) (buildCMAT mna D h n points) x (li * n + r) =
      ((List.range points).map (fun ci =>
        blockMul n (block mna D h points li ci) x ci r)).sum := by
  unfold mulVec
  rw [sum_range_mul]
  congr 1
  apply List.map_congr_left
  intro ci hci
  unfold blockMul
  congr 1
  apply List.map_congr_left
  intro c hc
  rw [C55_entries mna D h n points li ci r c hr (List.mem_range.1 hc) hl (List.mem_range.1 hci)]

theorem sum_neg (l : List Nat) (f : Nat → K) : (l.map (fun c => - f c)).sum = -(l.map f).sum := by
  induction l with
  | nil => simp
  | cons a t ih => simp only [List.map_cons, List.sum_cons, ih]; ring

theorem blockMul_zero (n : Nat) (M : Nat → Nat → K) (x : Nat → K) (b r : Nat)
    (h : ∀ c, M r c = 0) : blockMul n M x b r = 0 := by
  unfold blockMul
  apply List.sum_eq_zero
  intro y hy
  obtain ⟨c, _, rfl⟩ := List.mem_map.1 hy
  simp [h]

/-- C55: the first block of the product is the condition of periodicity. -/
theorem C55_periodicity (mna D : Nat → Nat → K) (h : K) (n points r : Nat) (x : Nat → K)
    (hr : r < n) (hp : 2 ≤ points) :
    mulVec (points * n) (buildCMAT mna D h n points) x r = x r - x ((points - 1) * n + r) := by
  have h0 := mulVec_blocks mna D h n points 0 r x hr (by omega)
  rw [Nat.zero_mul, Nat.zero_add] at h0
  rw [h0, sum_pair points 0 (points - 1) (by omega) (by omega) (by omega)]
  · have e1 : blockMul n (block mna D h points 0 0) x 0 r = x r := by
      unfold blockMul
      rw [sum_single n r hr]
      · simp [block, blockAt, eye]
      · intro c _ hne
        simp [block, blockAt, eye, hne.symm]
    have e2 : blockMul n (block mna D h points 0 (points - 1)) x (points - 1) r =
        - x ((points - 1) * n + r) := by
      have hne : ¬ points - 1 = 0 := by omega
      unfold blockMul
      rw [sum_single n r hr]
      · simp [block, blockAt, eye, hne]
      · intro c _ hne'
        simp [block, blockAt, eye, hne, hne'.symm]
    rw [e1, e2]
    ring
  · intro i _ h1 h2
    apply blockMul_zero
    intro c
    simp [block, blockAt, h1, h2]

/-- C55: the other blocks are implicit Euler. -/
theorem C55_implicit_euler (mna D : Nat → Nat → K) (h : K) (n points li r : Nat) (x : Nat → K)
    (hr : r < n) (hl : li < points) (h0 : 1 ≤ li) :
    mulVec (points * n) (buildCMAT mna D h n points) x (li * n + r) =
      blockMul n (fun i j => mna i j + D i j / h) x li r -
      blockMul n (fun i j => D i j / h) x (li - 1) r := by
  rw [mulVec_blocks mna D h n points li r x hr hl,
    sum_pair points li (li - 1) hl (by omega) (by omega)]
  · have hne : ¬ li = 0 := by omega
    have e1 : blockMul n (block mna D h points li li) x li r =
        blockMul n (fun i j => mna i j + D i j / h) x li r := by
      unfold blockMul
      congr 1
      apply List.map_congr_left
      intro c _
      simp only [block, blockAt, hne, if_false, if_true]
      ring
    have e2 : blockMul n (block mna D h points li (li - 1)) x (li - 1) r =
        - blockMul n (fun i j => D i j / h) x (li - 1) r := by
      have hne' : ¬ li - 1 = li := by omega
      have hs : li - 1 + 1 = li := by omega
      unfold blockMul
      rw [← sum_neg]
      congr 1
      apply List.map_congr_left
      intro c _
      simp only [block, blockAt, hne, if_false, hne', hs, if_true]
      ring
    rw [e1, e2]
    ring
  · intro i _ h1 h2
    apply blockMul_zero
    intro c
    have h3 : ¬ li = 0 := by omega
    have h4 : ¬ i + 1 = li := by omega
    simp [block, blockAt, h1, h3, h4]

/-! ### C99 -/

/-- The constant vector: nothing at the first point, the sources at all others. -/
theorem C99_constants (n points k r : Nat) (sTf : Nat → K) (hr : r < n) (hk : k < points) :
    buildTf n points sTf (k * n + r) = if k = 0 then 0 else sTf r := by
  unfold buildTf
  have key : ∀ (ls : List Nat) (T : Nat → K), ls.Nodup →
      (ls.foldl (fun (T : Nat → K) k => fun i =>
        if k * n ≤ i ∧ i < k * n + n then sTf (i - k * n) else T i) T) (k * n + r) =
        if k ∈ ls then sTf r else T (k * n + r) := by
    intro ls
    induction ls with
    | nil => intro T _; simp
    | cons a t ih =>
      intro T hnd
      have hnd' := List.nodup_cons.1 hnd
      rw [List.foldl_cons, ih _ hnd'.2]
      have hk' : (a * n ≤ k * n + r ∧ k * n + r < a * n + n) ↔ k = a := by
        constructor
        · rintro ⟨h1, h2⟩
          have h3 : a ≤ k := by
            by_contra hc
            have : (k + 1) * n ≤ a * n := Nat.mul_le_mul_right n (by omega)
            have e : (k + 1) * n = k * n + n := by ring
            omega
          have h4 : k ≤ a := by
            by_contra hc
            have : (a + 1) * n ≤ k * n := Nat.mul_le_mul_right n (by omega)
            have e : (a + 1) * n = a * n + n := by ring
            omega
          omega
        · rintro rfl
          omega
      by_cases hka : k = a
      · subst hka
        rw [if_neg hnd'.1, if_pos (hk'.2 rfl), if_pos (by simp)]
        congr 1
        omega
      · rw [if_neg (fun h => hka (hk'.1 h))]
        simp [hka]
  rw [key _ _ (List.Nodup.sublist (List.drop_sublist _ _) List.nodup_range)]
  have hmem : k ∈ (List.range points).drop 1 ↔ k ≠ 0 := by
    cases points with
    | zero => omega
    | succ p =>
      rw [List.range_succ_eq_map, List.drop_succ_cons, List.drop_zero]
      simp only [List.mem_map, List.mem_range]
      constructor
      · rintro ⟨a, _, rfl⟩; omega
      · intro h; exact ⟨k - 1, by omega, by simp; omega⟩
  by_cases h0 : k = 0
  · rw [if_neg (by rw [hmem]; simp [h0]), if_pos h0]
  · rw [if_pos (hmem.2 h0), if_neg h0]

/-- C99: for large systems the residual is the column `CMAT x + b`. Missing: systems of up to 400
unknowns (`C99_dense_refuted`). -/
theorem C99_residual_partial (n points : Nat) (M : Nat → Nat → K) (x b : Nat → K)
    (hs : isSparse n points = true) :
    (residual (!isSparse n points) (n * points) M x b).rows = n * points ∧
    (residual (!isSparse n points) (n * points) M x b).cols = 1 ∧
    ∀ i, (residual (!isSparse n points) (n * points) M x b).at_ i 0 =
      mulVec (n * points) M x i + b i := by
  simp [hs, residual]

/-- C99 is false for small systems: the residual has as many columns as there are unknowns. -/
theorem C99_dense_refuted (n points : Nat) (M : Nat → Nat → K) (x b : Nat → K)
    (hs : n * points ≤ 400) (h2 : 2 ≤ n * points) :
    (residual (!isSparse n points) (n * points) M x b).cols ≠ 1 := by
  have : isSparse n points = false := by simpa [isSparse] using hs
  simp only [this, residual, Bool.not_false, if_true]
  omega

/-- C99: the entries of what is computed for small systems: every column of the matrix times the unknowns, plus the other terms. -/
theorem C99_dense_entries_refuted (n points : Nat) (M : Nat → Nat → K) (x b : Nat → K) (hs : n * points ≤ 400) (i j : Nat) :
    (residual (!isSparse n points) (n * points) M x b).at_ i j = M i j * x i + b i := by
  have : isSparse n points = false := by simp [isSparse]; omega
  simp only [this, residual, Bool.not_false, if_true]

/-- With one unknown at two points, its first column is not the residual either. -/
theorem C99_dense_value_refuted :
    ¬ ∀ (M : Nat → Nat → ℚ) (x b : Nat → ℚ) (i : Nat), i < 2 →
      (residual (!isSparse 1 2) 2 M x b).at_ i 0 = mulVec 2 M x i + b i := by
  intro h
  have := h (fun _ _ => 1) (fun i => if i = 0 then 1 else 5) (fun _ => 0) 0 (by norm_num)
  simp [residual, isSparse, mulVec, List.range_succ] at this

example : isSparse 5 100 = true ∧ isSparse 4 100 = false := by decide

/-- One unknown, three points, step 1/2. -/
example : (List.range 3).map (fun i => (List.range 3).map
    (buildCMAT (fun _ _ => (1 : ℚ)) (fun _ _ => 1) (1 / 2) 1 3 i)) =
    [[1, 0, -1], [-2, 3, 0], [0, -2, 3]] := by decide +kernel

end bruteForce

/-- The shooting update for a scalar circuit with two points: hypotheses and value. -/
example : (IsUnit (1 - mat1 (fun _ => (!![2] : Matrix (Fin 1) (Fin 1) ℚ)) !![-1] 2).det) := by
  have h : (!![2] : Matrix (Fin 1) (Fin 1) ℚ)⁻¹ = !![1 / 2] := by
    apply Matrix.inv_eq_right_inv
    ext i j
    fin_cases i
    fin_cases j
    simp [Matrix.mul_apply]
  simp only [mat1, h]
  rw [isUnit_iff_ne_zero, Matrix.det_fin_one]
  simp
  norm_num

end Verif.Pss
