import Verif.Model.Pz
import Verif.Proof.Symbolic
import Mathlib.LinearAlgebra.Matrix.SchurComplement
import Mathlib.Tactic.FieldSimp
import Mathlib.LinearAlgebra.Matrix.Charpoly.Coeff
import Mathlib.Algebra.Polynomial.Roots
import Mathlib.Tactic.FinCases
import Mathlib.Tactic.Linarith

/-!
C62: reported poles are the natural frequencies of the circuit.
C113: reported zeros are the zeros of the transfer function.
C114: `calculate_poles` returns the poles.
C115: the pole-zero analysis ends.
-/

namespace Verif.Pz
open Verif.Circuit Verif.Mna Verif.Dyn Verif.Symbolic Matrix

variable {α : Type} [Field α]

/-- the coefficients of the functional `portV` -/
theorem portV_sum {n : Nat} (n1 n2 : Nat) (TV : Vec α) (h1 : n1 < n + 1) (h2 : n2 < n + 1) :
    portV n1 n2 TV = ∑ j : Fin n, incidence n1 n2 (j + 1) * TV (j + 1) := by
  have key : ∀ m, m < n + 1 → (∑ j : Fin n, (if 0 < m ∧ (j : Nat) + 1 = m then (1 : α) else 0) * TV (j + 1)) =
      if m ≠ 0 then TV m else 0 := by
    intro m hm
    by_cases h0 : m = 0
    · subst h0; simp
    · rw [if_pos h0, Finset.sum_eq_single (⟨m - 1, by omega⟩ : Fin n)]
      · simp only
        rw [if_pos (by omega), one_mul]; congr 1; omega
      · intro b _ hb
        rw [if_neg, zero_mul]
        intro hh
        apply hb
        ext
        simp only; omega
      · simp
  unfold portV incidence
  rw [← key n1 h1, ← key n2 h2, ← Finset.sum_sub_distrib]
  exact Finset.sum_congr rfl (fun _ _ => by ring)

/-- what an element of the list refers to exists -/
def Valid (n nv : Nat) (p : Nat × Elem α) : Prop :=
  match p.2 with
  | .C _ n1 n2 _ _ | .I _ n1 n2 _ => n1 < n + 1 ∧ n2 < n + 1
  | .L .. | .V .. => 0 < nv ∧ nv + p.1 < n + 1
  | _ => False

/-- the coefficients of `probe` -/
def prow (nv : Nat) (p : Nat × Elem α) : Vec α :=
  match p.2 with
  | .C _ n1 n2 _ _ => incidence n1 n2
  | .L .. => fun i => if i = nv + p.1 then 1 else 0
  | _ => fun _ => 0

theorem probe_sum {n nv : Nat} {p : Nat × Elem α} (hv : Valid n nv p) (TV : Vec α) :
    probe nv p TV = ∑ j : Fin n, prow nv p (j + 1) * TV (j + 1) := by
  obtain ⟨k, e⟩ := p
  cases e with
  | C id n1 n2 v ic => exact portV_sum n1 n2 TV hv.1 hv.2
  | L id n1 n2 v ic coup =>
    simp only [Valid] at hv
    simp only [probe, prow]
    rw [Finset.sum_eq_single (⟨nv + k - 1, by omega⟩ : Fin n)]
    · simp only
      rw [if_pos (by omega), one_mul]; congr 1; omega
    · intro b _ hb
      rw [if_neg, zero_mul]
      intro hh
      apply hb
      ext
      simp only; omega
    · simp
  | _ => simp [probe, prow]

theorem tv_fin {n : Nat} (W : Matrix (Fin n) (Fin n) α) (b : Vec α) (i : Fin n) :
    tv W b (i + 1) = -(W *ᵥ fun j : Fin n => b (j + 1)) i := by
  unfold tv
  rw [dif_pos ⟨by omega, by have := i.2; omega⟩]
  simp [Matrix.mulVec, dotProduct]

section Factor
variable {n : Nat} (nv : Nat) (l : List (Nat × Elem α))

/-- columns `MC` -/
def U (n : Nat) : Matrix (Fin n) (Fin l.length) α := Matrix.of fun i a => mc nv l[a] (i + 1)
/-- rows of the responses -/
def V (n : Nat) : Matrix (Fin l.length) (Fin n) α := Matrix.of fun a j => prow nv l[a] (j + 1)
/-- values -/
def dg : Matrix (Fin l.length) (Fin l.length) α := Matrix.diagonal fun a => valueOf l[a].2

theorem tcm_eq (W : Matrix (Fin n) (Fin n) α) (hv : ∀ p ∈ l, Valid n nv p) :
    tcm W nv l = -(V nv l n * W * U nv l n * dg l) := by
  ext i j
  rw [Matrix.neg_apply, dg, Matrix.mul_diagonal, Matrix.mul_assoc, Matrix.mul_apply]
  unfold tcm
  rw [Matrix.of_apply, probe_sum (p := l[i]) (hv _ (List.getElem_mem i.2)), ← neg_mul,
    ← Finset.sum_neg_distrib]
  congr 1
  refine Finset.sum_congr rfl (fun a _ => ?_)
  rw [tv_fin]
  simp [V, U, Matrix.mul_apply, Matrix.mulVec, dotProduct]

end Factor

/-- no mutual inductances -/
def NoCoup : Elem α → Prop
  | .L _ _ _ _ _ coup => coup = []
  | _ => True

theorem reactive_valid {n nv : Nat} {circ : List (Elem α)} {k : Nat} (h0 : 0 < nv)
    (hn : ∀ e ∈ circ, NodesLt nv e) (hS : nv + k + (vdes circ).length ≤ n + 1) :
    ∀ p ∈ reactive circ k, Valid n nv p := by
  induction circ generalizing k with
  | nil => simp [reactive]
  | cons e r ih =>
    have he := hn e (List.mem_cons_self ..)
    rw [vdes_cons_length] at hS
    have ih' := ih (k := k + if e.vde then 1 else 0) (fun e' h' => hn e' (List.mem_cons_of_mem _ h'))
      (by omega)
    intro p hp
    simp only [reactive] at hp
    by_cases hr : isReactive e = true
    · rw [if_pos hr] at hp
      rcases List.mem_cons.mp hp with rfl | hp
      · cases e with
        | C => simp only [NodesLt] at he; simp only [Valid]; omega
        | L => simp only [Elem.vde, if_true] at hS; simp only [Valid]; omega
        | _ => simp [isReactive] at hr
      · exact ih' p hp
    · rw [if_neg hr] at hp; exact ih' p hp

theorem reactive_sum {nv : Nat} {circ : List (Elem α)} {k : Nat} (h0 : 0 < nv) (i j : Nat) :
    ((reactive circ k).map (fun p => mc nv p (i + 1) * valueOf p.2 * prow nv p (j + 1))).sum =
      capSum circ (i + 1) (j + 1) + selfSum (nv + k) circ (i + 1) (j + 1) := by
  induction circ generalizing k with
  | nil => simp [reactive, capSum, selfSum]
  | cons e r ih =>
    simp only [reactive, capSum, selfSum]
    have ih' := ih (k := k + if e.vde then 1 else 0)
    rw [← Nat.add_assoc] at ih'
    by_cases hr : isReactive e = true
    · rw [if_pos hr, List.map_cons, List.sum_cons, ih']
      cases e with
      | C id n1 n2 v ic =>
        have : mc nv (k, Elem.C id n1 n2 v ic) (i + 1) * v * prow nv (k, Elem.C id n1 n2 v ic) (j + 1) =
            capD (Elem.C id n1 n2 v ic) (i + 1) (j + 1) := by
          have a1 : ∀ m a : Nat, (0 < m ∧ a + 1 = m) ↔ a + 1 = m := by omega
          simp only [mc, prow, incidence, capD, δ, a1]
          have a2 : ∀ (x y z w : Nat) (u : α), (if x = y ∧ z = w then u else 0) =
              (if x = y then 1 else 0) * (if z = w then 1 else 0) * u := by
            intro x y z w u
            by_cases hx : x = y <;> by_cases hz : z = w <;> simp [hx, hz]
          simp only [a2]
          ring
        simp only [valueOf, selfD]
        rw [this]; ring
      | L id n1 n2 v ic coup =>
        simp only [mc, prow, valueOf, capD, selfD, δ]
        by_cases q1 : i + 1 = nv + k <;> by_cases q2 : j + 1 = nv + k <;> simp [q1, q2] <;> ring
      | _ => simp [isReactive] at hr
    · rw [if_neg hr, ih']
      cases e with
      | C => simp [isReactive] at hr
      | L => simp [isReactive] at hr
      | _ => simp [capD, selfD]

theorem mutSum_zero {circ l : List (Elem α)} {nv z : Nat} (h : ∀ e ∈ l, NoCoup e) (a b : Nat) :
    mutSum circ nv z l a b = 0 := by
  induction l generalizing z with
  | nil => rfl
  | cons e r ih =>
    have he := h e (List.mem_cons_self ..)
    simp only [mutSum, ih (fun e' h' => h e' (List.mem_cons_of_mem _ h')), add_zero]
    cases e with
    | L => simp only [NoCoup] at he; subst he; rfl
    | _ => rfl

/-- `D` is the product of the columns, the values and the rows of the reactive elements. -/
theorem red_D {circ : List (Elem α)} {nv n S : Nat} {D : Mat α} (h0 : 0 < nv)
    (hn : ∀ e ∈ circ, NodesLt nv e) (hc : ∀ e ∈ circ, NoCoup e)
    (hD : generateD circ nv S 0 = .ok D) :
    red n D = U nv (reactive circ 0) n * dg (reactive circ 0) * V nv (reactive circ 0) n := by
  ext i j
  rw [Matrix.mul_apply]
  simp only [dg, Matrix.mul_diagonal]
  have := reactive_sum (circ := circ) (k := 0) h0 (i : Nat) (j : Nat)
  unfold red
  rw [Matrix.of_apply, generateD_entries hn hD, mutSum_zero hc, add_zero]
  have e : selfSum nv circ ((i : Nat) + 1) ((j : Nat) + 1) =
      selfSum (nv + 0) circ ((i : Nat) + 1) ((j : Nat) + 1) := rfl
  rw [e, ← this, ← Fin.sum_univ_fun_getElem]
  rfl

/-- C62, the determinant: if `W` is the inverse of the shifted MNA matrix, then at the distance `σ`
from the shift the determinant of the circuit equations is that of `1 - σ*TCM`, up to a non-zero
factor. -/
theorem C62_det {circ : List (Elem α)} {nv n S : Nat} {D : Mat α} (M : Mat α)
    {W : Matrix (Fin n) (Fin n) α} (shift σ : α) (h0 : 0 < nv)
    (hn : ∀ e ∈ circ, NodesLt nv e) (hc : ∀ e ∈ circ, NoCoup e)
    (hS : nv + (vdes circ).length ≤ n + 1)
    (hD : generateD circ nv S 0 = .ok D) (hW : (red n M + shift • red n D) * W = 1) :
    (red n M + (shift + σ) • red n D).det =
      (red n M + shift • red n D).det * (1 - σ • tcm W nv (reactive circ 0)).det := by
  have hv := reactive_valid (n := n) (k := 0) h0 hn (by omega)
  have e1 : red n M + (shift + σ) • red n D =
      (red n M + shift • red n D) * (1 + W * (U nv (reactive circ 0) n * dg (reactive circ 0)) *
        (σ • V nv (reactive circ 0) n)) := by
    rw [Matrix.mul_add, Matrix.mul_one, ← Matrix.mul_assoc, ← Matrix.mul_assoc, hW, Matrix.one_mul,
      Matrix.mul_smul, ← red_D h0 hn hc hD, add_smul, add_assoc]
  rw [e1, Matrix.det_mul, Matrix.det_one_add_mul_comm]
  congr 2
  rw [tcm_eq nv _ W hv, smul_neg, sub_neg_eq_add]
  congr 1
  simp only [Matrix.smul_mul, Matrix.mul_assoc]

/-- C62: for a non-zero `λ`, `λ` is an eigenvalue of the time-constant matrix iff `1/λ + shift`
(that is `2π` times the reported pole) is a natural frequency of the circuit; and every natural
frequency other than the shift is reported like this. Missing: mutual inductances, which the
time-constant matrix ignores (`C62_mutual_inductance_refuted`), and the parasitic `cmin`. -/
theorem C62_poles_partial {circ : List (Elem α)} {nv n S : Nat} {D : Mat α} (M : Mat α)
    {W : Matrix (Fin n) (Fin n) α} (shift : α) (h0 : 0 < nv)
    (hn : ∀ e ∈ circ, NodesLt nv e) (hc : ∀ e ∈ circ, NoCoup e)
    (hS : nv + (vdes circ).length ≤ n + 1)
    (hD : generateD circ nv S 0 = .ok D) (hW : (red n M + shift • red n D) * W = 1) :
    (∀ lam, lam ≠ 0 → ((tcm W nv (reactive circ 0)).charpoly.IsRoot lam ↔
      (red n M + (1 / lam + shift) • red n D).det = 0)) ∧
    (∀ s, s ≠ shift → ((red n M + s • red n D).det = 0 ↔
      ∃ lam, lam ≠ 0 ∧ (tcm W nv (reactive circ 0)).charpoly.IsRoot lam ∧ 1 / lam + shift = s)) := by
  have hne : (red n M + shift • red n D).det ≠ 0 := by
    intro h
    have := congrArg Matrix.det hW
    rw [Matrix.det_mul, h, zero_mul, Matrix.det_one] at this
    exact zero_ne_one this
  have key : ∀ lam, lam ≠ 0 → ((tcm W nv (reactive circ 0)).charpoly.IsRoot lam ↔
      (red n M + (1 / lam + shift) • red n D).det = 0) := by
    intro lam hl
    rw [add_comm (1 / lam) shift, C62_det M shift (1 / lam) h0 hn hc hS hD hW, mul_eq_zero, Polynomial.IsRoot,
      Matrix.eval_charpoly]
    have e : Matrix.scalar (Fin (reactive circ 0).length) lam - tcm W nv (reactive circ 0) =
        lam • (1 - (1 / lam) • tcm W nv (reactive circ 0)) := by
      rw [smul_sub, smul_smul, mul_one_div_cancel hl, one_smul, Matrix.smul_one_eq_diagonal]
      rfl
    rw [e, Matrix.det_smul, mul_eq_zero]
    constructor
    · rintro (h | h)
      · exact absurd h (pow_ne_zero _ hl)
      · exact .inr h
    · rintro (h | h)
      · exact absurd h hne
      · exact .inr h
  refine ⟨key, fun s hs => ?_⟩
  have hs' : s - shift ≠ 0 := sub_ne_zero.mpr hs
  constructor
  · intro hdet
    refine ⟨1 / (s - shift), one_div_ne_zero hs', ?_, ?_⟩
    · rw [key _ (one_div_ne_zero hs')]
      rw [one_div_one_div, sub_add_cancel]; exact hdet
    · rw [one_div_one_div, sub_add_cancel]
  · rintro ⟨lam, hl, hroot, rfl⟩
    exact (key lam hl).mp hroot

/-- an RC low-pass filter with an RL load -/
def rcDemo : List (Elem ℚ) :=
  [.V "V1" 1 0 { dc := some 1 }, .R "R1" 1 2 1, .C "C1" 2 0 1 none, .R "R2" 2 3 1, .L "L1" 3 0 2 none []]

def matOf (circ : List (Elem ℚ)) (nv : Nat) : Mat ℚ := (okOr ⟨0, fun _ _ => 0, fun _ => 0⟩ (generate circ nv)).M
def dynOf (circ : List (Elem ℚ)) (nv S : Nat) : Mat ℚ := okOr (fun _ _ => 0) (generateD circ nv S 0)

/-- the inverse of the MNA matrix of `rcDemo` -/
def rcInv : Matrix (Fin 5) (Fin 5) ℚ :=
  !![0, 0, 0, 1, 0; 0, 1/2, 0, 1/2, 1/2; 0, 0, 0, 0, 1; 1, 1/2, 0, -1/2, 1/2; 0, 1/2, 1, 1/2, -1/2]

example : (∀ e ∈ rcDemo, NodesLt 4 e) ∧ (∀ e ∈ rcDemo, NoCoup e) ∧ 4 + (vdes rcDemo).length ≤ 5 + 1 := by
  refine ⟨?_, ?_, ?_⟩
  · simp [rcDemo, NodesLt]
  · simp [rcDemo, NoCoup]
  · decide +kernel

example : generateD rcDemo 4 6 0 = .ok (dynOf rcDemo 4 6) := rfl

example : (red 5 (matOf rcDemo 4) + (0 : ℚ) • red 5 (dynOf rcDemo 4 6)) * rcInv = 1 := by
  decide +kernel

/-- the time constants of the demo: the characteristic equation is `s^2 + 3/2 s + 1 = 0` -/
example : (List.ofFn fun i => List.ofFn fun j => tcm rcInv 4 (reactive rcDemo 0) i j) =
    [[-1/2, 1], [-1/2, -1]] := by
  decide +kernel

/-- two inductors of 1 H with `M = 1/2`, each with a resistor of 1 Ω -/
def mutualDemo : List (Elem ℚ) :=
  [.L "L1" 1 0 1 none [⟨"K1", "L1", "L2", 1/2, 1/2⟩],
   .L "L2" 2 0 1 none [⟨"K1", "L1", "L2", 1/2, 1/2⟩], .K ⟨"K1", "L1", "L2", 1/2, 1/2⟩,
   .R "R1" 1 0 1, .R "R2" 2 0 1]

def mutualInv : Matrix (Fin 4) (Fin 4) ℚ := !![0, 0, 1, 0; 0, 0, 0, 1; 1, 0, -1, 0; 0, 1, 0, -1]

/-- C62 refuted for mutual inductances: they are in `D`, but the time-constant matrix is built from
the self-inductances. For `mutualDemo` the natural frequencies are `-2` and `-2/3`, the
reported ones are `-1` twice. -/
theorem C62_mutual_inductance_refuted :
    let M := red 4 (matOf mutualDemo 3)
    let D := red 4 (dynOf mutualDemo 3 5)
    (M + (0 : ℚ) • D) * mutualInv = 1 ∧ (M + (-2 : ℚ) • D).det = 0 ∧
    ¬ (tcm mutualInv 3 (reactive mutualDemo 0)).charpoly.IsRoot (-1/2) ∧
    (tcm mutualInv 3 (reactive mutualDemo 0)).charpoly.IsRoot (-1) ∧ (M + (-1 : ℚ) • D).det ≠ 0 := by
  simp only [Polynomial.IsRoot, Matrix.eval_charpoly]
  have e : tcm mutualInv 3 (reactive mutualDemo 0) = -1 := by decide +kernel
  rw [e]
  have e2 : ∀ x : ℚ, (Matrix.scalar (Fin (reactive mutualDemo 0).length) x - -1).det = (x + 1) ^ 2 := by
    intro x
    have : Matrix.scalar (Fin (reactive mutualDemo 0).length) x - -1 = Matrix.scalar _ (x + 1) := by
      rw [map_add, sub_neg_eq_add, map_one]
    rw [this, Matrix.scalar_apply, Matrix.det_diagonal, Finset.prod_const]
    rfl
  rw [e2, e2]
  refine ⟨by decide +kernel, by decide +kernel, by norm_num, by norm_num, by decide +kernel⟩

section Zeros
variable {n nv : Nat} {circ : List (Elem α)} {W : Matrix (Fin n) (Fin n) α}

/-- the vector of an independent source -/
def bvec (n nv : Nat) (src : Nat × Elem α) : Fin n → α := fun i => mc nv src (i + 1)

/-- an unreduced vector with the given entries -/
def full (x : Fin n → α) : Vec α := fun i => if h : 0 < i ∧ i - 1 < n then x ⟨i - 1, h.2⟩ else 0

theorem full_fin (x : Fin n → α) (i : Fin n) : full x (i + 1) = x i := by
  unfold full
  rw [dif_pos ⟨by omega, by have := i.2; omega⟩]
  rfl

theorem tv_full (b : Vec α) : tv W b = full (-(W *ᵥ fun j : Fin n => b (j + 1))) := by
  funext i
  unfold tv full
  split_ifs with h
  · simp [Matrix.mulVec, dotProduct]
  · rfl

/-- C113, the equation of the zeros: let `x` solve the circuit equations at the frequency
`shift + σ` with the input source at 1. The output voltage times `det(1 - σ*TCM)` is
`ROUTIN*det(1 - σ*ZTCM)`. -/
theorem C113_output {S : Nat} {D : Mat α} (M : Mat α) (src : Nat × Elem α) (o1 o2 : Nat)
    (shift σ : α) (x : Fin n → α) (h0 : 0 < nv)
    (hn : ∀ e ∈ circ, NodesLt nv e) (hc : ∀ e ∈ circ, NoCoup e)
    (hS : nv + (vdes circ).length ≤ n + 1) (ho1 : o1 < n + 1) (ho2 : o2 < n + 1)
    (hD : generateD circ nv S 0 = .ok D) (hW : (red n M + shift • red n D) * W = 1)
    (hx : (red n M + (shift + σ) • red n D) *ᵥ x + bvec n nv src = 0)
    (hσ : (1 - σ • tcm W nv (reactive circ 0)).det ≠ 0) (hr : routin W nv src o1 o2 ≠ 0) :
    portV o1 o2 (full x) * (1 - σ • tcm W nv (reactive circ 0)).det =
      routin W nv src o1 o2 * (1 - σ • ztcm W nv (reactive circ 0) src o1 o2).det := by
  have hv := reactive_valid (n := n) (k := 0) h0 hn (by omega)
  set l := reactive circ 0 with hl
  have hW' : W * (red n M + shift • red n D) = 1 := mul_eq_one_comm.mp hW
  -- the responses of the reactive elements
  set v : Fin l.length → α := V nv l n *ᵥ x with hvdef
  have hxW : x = -(W *ᵥ bvec n nv src) - σ • (W *ᵥ ((U nv l n * dg l) *ᵥ v)) := by
    have e1 : (red n M + shift • red n D) *ᵥ x = -bvec n nv src - σ • ((U nv l n * dg l) *ᵥ v) := by
      have : (red n M + (shift + σ) • red n D) *ᵥ x =
          (red n M + shift • red n D) *ᵥ x + σ • ((U nv l n * dg l) *ᵥ v) := by
        rw [hvdef, Matrix.mulVec_mulVec, ← red_D h0 hn hc hD, add_smul, ← add_assoc, Matrix.add_mulVec,
          Matrix.smul_mulVec]
      rw [this] at hx
      have := eq_neg_of_add_eq_zero_left hx
      have h2 := eq_sub_of_add_eq this
      rw [h2]
    have e2 : x = W *ᵥ ((red n M + shift • red n D) *ᵥ x) := by
      rw [Matrix.mulVec_mulVec, hW', Matrix.one_mulVec]
    rw [e1, Matrix.mulVec_sub, Matrix.mulVec_neg, Matrix.mulVec_smul] at e2
    exact e2
  have hriin : riin W nv l src = -(V nv l n *ᵥ (W *ᵥ bvec n nv src)) := by
    funext i
    unfold riin
    rw [probe_sum (p := l[i]) (hv _ (List.getElem_mem i.2)), Pi.neg_apply, Matrix.mulVec, dotProduct,
      ← Finset.sum_neg_distrib]
    refine Finset.sum_congr rfl (fun a _ => ?_)
    rw [tv_fin, mul_neg]
    rfl
  have hB : (1 - σ • tcm W nv l) *ᵥ v = riin W nv l src := by
    rw [tcm_eq nv l W hv, Matrix.sub_mulVec, Matrix.one_mulVec, smul_neg, Matrix.neg_mulVec, sub_neg_eq_add,
      hriin]
    have hv2 : v = -(V nv l n *ᵥ (W *ᵥ bvec n nv src)) -
        σ • (V nv l n *ᵥ (W *ᵥ ((U nv l n * dg l) *ᵥ v))) := by
      conv_lhs => rw [hvdef, hxW]
      rw [Matrix.mulVec_sub, Matrix.mulVec_neg, Matrix.mulVec_smul]
    rw [Matrix.smul_mulVec]
    nth_rewrite 1 [hv2]
    simp only [Matrix.mulVec_mulVec, Matrix.mul_assoc]
    abel
  have hout : portV o1 o2 (full x) = routin W nv src o1 o2 + σ * (rout W nv l o1 o2 ⬝ᵥ v) := by
    have lin : ∀ y : Fin n → α, portV o1 o2 (full y) = (fun j : Fin n => incidence o1 o2 (j + 1)) ⬝ᵥ y := by
      intro y
      rw [portV_sum o1 o2 _ ho1 ho2]
      exact Finset.sum_congr rfl (fun a _ => by rw [full_fin])
    have hro : rout W nv l o1 o2 = -((fun j : Fin n => incidence o1 o2 (j + 1)) ᵥ* (W * (U nv l n * dg l))) := by
      funext j
      unfold rout
      rw [tv_full, lin, dotProduct_neg, Pi.neg_apply, ← Matrix.mul_assoc, dg, ← Matrix.vecMul_vecMul]
      rw [Matrix.vecMul_diagonal, ← Matrix.vecMul_vecMul, ← neg_mul]
      congr 2
      rw [Matrix.dotProduct_mulVec]
      rfl
    unfold routin
    rw [tv_full, lin, lin]
    conv_lhs => rw [hxW]
    rw [dotProduct_sub, dotProduct_smul, hro, neg_dotProduct, ← Matrix.dotProduct_mulVec,
      Matrix.mulVec_mulVec]
    rw [smul_eq_mul, mul_neg, sub_eq_add_neg]
    rfl
  have hz : 1 - σ • ztcm W nv l src o1 o2 = (1 - σ • tcm W nv l) + Matrix.replicateCol Unit (riin W nv l src) *
      Matrix.replicateRow Unit ((σ / routin W nv src o1 o2) • rout W nv l o1 o2) := by
    ext i j
    simp [ztcm, Matrix.mul_apply]
    ring
  have hu : IsUnit (1 - σ • tcm W nv l).det := isUnit_iff_ne_zero.mpr hσ
  have hinv : (1 - σ • tcm W nv l)⁻¹ *ᵥ riin W nv l src = v := by
    rw [← hB, Matrix.mulVec_mulVec, Matrix.nonsing_inv_mul _ hu, Matrix.one_mulVec]
  have hs : (1 + Matrix.replicateRow Unit ((σ / routin W nv src o1 o2) • rout W nv l o1 o2) *
      (1 - σ • tcm W nv l)⁻¹ * Matrix.replicateCol Unit (riin W nv l src)).det =
      1 + σ / routin W nv src o1 o2 * (rout W nv l o1 o2 ⬝ᵥ v) := by
    rw [Matrix.det_unique, Matrix.mul_assoc, ← hinv]
    simp [Matrix.mul_apply, Matrix.mulVec, dotProduct, Finset.mul_sum, mul_assoc]
  rw [hz, Matrix.det_add_replicateCol_mul_replicateRow hu, hout, hs]
  field_simp

/-- the eigenvalue condition at `lam = 1/σ` -/
theorem isRoot_iff {k : Type} [Fintype k] [DecidableEq k] (T : Matrix k k α) {lam : α} (hl : lam ≠ 0) :
    T.charpoly.IsRoot lam ↔ (1 - (1 / lam) • T).det = 0 := by
  rw [Polynomial.IsRoot, Matrix.eval_charpoly]
  have e : Matrix.scalar k lam - T = lam • (1 - (1 / lam) • T) := by
    rw [smul_sub, smul_smul, mul_one_div_cancel hl, one_smul, Matrix.smul_one_eq_diagonal]
    rfl
  rw [e, Matrix.det_smul, mul_eq_zero]
  exact ⟨fun h => h.resolve_left (pow_ne_zero _ hl), .inr⟩

/-- C113: a non-zero `λ` is an eigenvalue of `ZTCM` iff the output voltage vanishes at the frequency
`1/λ + shift` (that is `2π` times the reported zero), for every frequency that is not a pole.
Missing: circuits with mutual inductances; circuits with `ROUTIN = 0` at every shift and
circuits with `ROUT = 0`, where no zero is computed. -/
theorem C113_zeros_partial {S : Nat} {D : Mat α} (M : Mat α) (src : Nat × Elem α) (o1 o2 : Nat)
    (shift lam : α) (x : Fin n → α) (h0 : 0 < nv) (hl : lam ≠ 0)
    (hn : ∀ e ∈ circ, NodesLt nv e) (hc : ∀ e ∈ circ, NoCoup e)
    (hS : nv + (vdes circ).length ≤ n + 1) (ho1 : o1 < n + 1) (ho2 : o2 < n + 1)
    (hD : generateD circ nv S 0 = .ok D) (hW : (red n M + shift • red n D) * W = 1)
    (hp : (red n M + (1 / lam + shift) • red n D).det ≠ 0)
    (hx : (red n M + (1 / lam + shift) • red n D) *ᵥ x + bvec n nv src = 0)
    (hr : routin W nv src o1 o2 ≠ 0) :
    (ztcm W nv (reactive circ 0) src o1 o2).charpoly.IsRoot lam ↔ portV o1 o2 (full x) = 0 := by
  rw [add_comm (1 / lam)] at hx hp
  have hσ : (1 - (1 / lam) • tcm W nv (reactive circ 0)).det ≠ 0 := by
    rw [C62_det M shift (1 / lam) h0 hn hc hS hD hW] at hp
    exact right_ne_zero_of_mul hp
  have h := C113_output M src o1 o2 shift (1 / lam) x h0 hn hc hS ho1 ho2 hD hW hx hσ hr
  rw [isRoot_iff _ hl]
  constructor
  · intro hz
    rw [hz, mul_zero] at h
    exact (mul_eq_zero.mp h).resolve_right hσ
  · intro hz
    rw [hz, zero_mul] at h
    exact (mul_eq_zero.mp h.symm).resolve_left hr

end Zeros

/-- the output of `rcDemo` at node 3 with the source at node 1 -/
example : routin rcInv 4 (0, .V "V1" 1 0 { dc := some 1 }) 2 0 = 1/2 := by decide +kernel

/-- the zero `-1/2` (`R2 + s*L1 = 0`) of the voltage at node 2 of `rcDemo` -/
example : (List.ofFn fun i => List.ofFn fun j =>
    ztcm rcInv 4 (reactive rcDemo 0) (0, .V "V1" 1 0 { dc := some 1 }) 2 0 i j) = [[0, 0], [0, -2]] := by
  decide +kernel

/-- two coupled inductors: the first in series with `R3` across the input, the second loaded by `R2` -/
def coupledDemo : List (Elem ℚ) :=
  [.L "L1" 1 2 1 none [⟨"K1", "L1", "L2", 1/2, 1/2⟩],
   .L "L2" 3 0 1 none [⟨"K1", "L1", "L2", 1/2, 1/2⟩], .K ⟨"K1", "L1", "L2", 1/2, 1/2⟩,
   .R "R1" 1 0 1, .R "R2" 3 0 1, .R "R3" 2 0 1, .I "I1" 1 0 { dc := some 1 }]

/-- the inverse of the MNA matrix of `coupledDemo` -/
def coupledInv : Matrix (Fin 5) (Fin 5) ℚ :=
  !![1/2, 1/2, 0, 1/2, 0; 1/2, 1/2, 0, -1/2, 0; 0, 0, 0, 0, 1; 1/2, -1/2, 0, -1/2, 0; 0, 0, 1, 0, -1]

/-- the inverse of `M + s*D` at `s = -1` -/
def coupledInv1 : Matrix (Fin 5) (Fin 5) ℚ :=
  !![1, 0, 2, 0, -2; 0, 1, -2, 0, 2; 2, -2, 5, -2, -4; 0, 0, -2, 0, 2; -2, 2, -4, 2, 4]

/-- C113 refuted for mutual inductances: the input impedance of `coupledDemo` vanishes at `-2` and `-2/3`,
but `ZTCM` has the eigenvalue `-1` twice. At `s = -1`, which is not a pole, the
output voltage is `-1` V for the source of 1 A; at `s = -2` it is zero although `-1/2` is not an eigenvalue. -/
theorem C113_mutual_refuted :
    let M := red 5 (matOf coupledDemo 4)
    let D := red 5 (dynOf coupledDemo 4 6)
    let src : Nat × Elem ℚ := (2, .I "I1" 1 0 { dc := some 1 })
    let Z := ztcm coupledInv 4 (reactive coupledDemo 0) src 1 0
    (M + (0 : ℚ) • D) * coupledInv = 1 ∧ routin coupledInv 4 src 1 0 ≠ 0 ∧
    (Z.charpoly.IsRoot (-1) ∧ (M + (-1 : ℚ) • D).det ≠ 0 ∧
      ∀ x, (M + (-1 : ℚ) • D) *ᵥ x + bvec 5 4 src = 0 → portV 1 0 (full x) = -1) ∧
    (¬ Z.charpoly.IsRoot (-1/2) ∧ (M + (-2 : ℚ) • D).det ≠ 0 ∧
      ∃ x, (M + (-2 : ℚ) • D) *ᵥ x + bvec 5 4 src = 0 ∧ portV 1 0 (full x) = 0) := by
  intro M D src Z
  have e : Z = -1 := by decide +kernel
  have e2 : ∀ x : ℚ, (Matrix.scalar (Fin (reactive coupledDemo 0).length) x - -1).det = (x + 1) ^ 2 := by
    intro x
    have : Matrix.scalar (Fin (reactive coupledDemo 0).length) x - -1 = Matrix.scalar _ (x + 1) := by
      rw [map_add, sub_neg_eq_add, map_one]
    rw [this, Matrix.scalar_apply, Matrix.det_diagonal, Finset.prod_const]
    rfl
  have i1 : coupledInv1 * (M + (-1 : ℚ) • D) = 1 := by decide +kernel
  have hb : coupledInv1 *ᵥ bvec 5 4 src = ![1, 0, 2, 0, -2] := by decide +kernel
  refine ⟨by decide +kernel, by decide +kernel, ⟨?_, ?_, ?_⟩, ?_, by decide +kernel,
    ![0, -1, -1, -1, 1], by decide +kernel, by decide +kernel⟩
  · rw [e, Polynomial.IsRoot, Matrix.eval_charpoly, e2]; norm_num
  · exact Matrix.det_ne_zero_of_left_inverse i1
  · intro x hx
    have h : x = - ![1, 0, 2, 0, -2] := by
      rw [← hb, ← Matrix.mulVec_neg, ← eq_neg_of_add_eq_zero_left hx, Matrix.mulVec_mulVec, i1, Matrix.one_mulVec]
    rw [h]
    decide +kernel
  · rw [e, Polynomial.IsRoot, Matrix.eval_charpoly, e2]; norm_num

/-- C114 refuted: `calculate_poles` never returns: its only statement subscripts the result of
`calculate_singularities` with `0`. -/
theorem C114_no_poles_refuted {R : Type} (res : Except Err R) : ∀ p, calculatePoles res ≠ .ok p := by
  intro p
  cases res <;> simp [calculatePoles]

/-- C114 refuted: it raises AttributeError whenever the analysis succeeds, and passes on the exception of the analysis otherwise. -/
theorem C114_error_refuted {R : Type} : (∀ r : R, calculatePoles (.ok r) = .error .attr) ∧
    ∀ x, calculatePoles (.error x : Except Err R) = .error x := ⟨fun _ => rfl, fun _ => rfl⟩

section Ends
open Polynomial
variable {n nv S : Nat} {circ : List (Elem α)}

/-- the characteristic polynomial of the circuit equations, `det(M + s*D)` -/
noncomputable def circuitPoly (n : Nat) (M D : Mat α) : α[X] :=
  ((red n M).map C + (X : α[X]) • (red n D).map C).det

theorem eval_circuitPoly (M D : Mat α) (s : α) :
    (circuitPoly n M D).eval s = (shifted n M D s).det := by
  have := RingHom.map_det (Polynomial.evalRingHom s) ((red n M).map C + (X : α[X]) • (red n D).map C)
  rw [← Polynomial.coe_evalRingHom, circuitPoly, this]
  congr 1
  ext i j
  simp [shifted]
  ring

theorem eval_charpolyRev' {k : Type} [Fintype k] [DecidableEq k] (T : Matrix k k α) (s : α) :
    T.charpolyRev.eval s = (1 - s • T).det := by
  have := RingHom.map_det (Polynomial.evalRingHom s) (1 - (X : α[X]) • T.map C)
  rw [← Polynomial.coe_evalRingHom, Matrix.charpolyRev, this]
  congr 1
  ext i j
  by_cases h : i = j <;> simp [h] <;> ring

theorem natDegree_charpolyRev {k : Type} [Fintype k] [DecidableEq k] (T : Matrix k k α) :
    T.charpolyRev.natDegree ≤ Fintype.card k ∧
      (T.charpolyRev.natDegree = Fintype.card k ↔ T.det ≠ 0) := by
  have h1 : T.charpolyRev.natDegree ≤ Fintype.card k := by
    rw [← Matrix.reverse_charpoly]
    exact (Polynomial.reverse_natDegree_le _).trans (by rw [Matrix.charpoly_natDegree_eq_dim])
  have h2 : T.charpolyRev.coeff (Fintype.card k) = T.charpoly.coeff 0 := by
    rw [← Matrix.reverse_charpoly, Polynomial.coeff_reverse, Matrix.charpoly_natDegree_eq_dim,
      Polynomial.revAt_le le_rfl, Nat.sub_self]
  have h3 : T.charpolyRev ≠ 0 := by
    intro h
    have := eval_charpolyRev' T 0
    rw [h] at this
    simp at this
  have h4 : T.det ≠ 0 ↔ T.charpoly.coeff 0 ≠ 0 := by
    rw [Matrix.det_eq_sign_charpoly_coeff]
    simp
  refine ⟨h1, ?_⟩
  rw [h4, ← h2]
  constructor
  · intro h
    rw [← h]
    exact Polynomial.leadingCoeff_ne_zero.mpr h3
  · intro h
    exact le_antisymm h1 (Polynomial.le_natDegree_of_ne_zero h)

/-- The determinant of the time-constant matrix is non-zero iff there are as many natural frequencies
(with multiplicity) as reactive elements, whatever the shift. -/
theorem det_tcm_iff [Infinite α] {D : Mat α} (M : Mat α) (shift : α) (h0 : 0 < nv)
    (hn : ∀ e ∈ circ, NodesLt nv e) (hc : ∀ e ∈ circ, NoCoup e)
    (hS : nv + (vdes circ).length ≤ n + 1) (hD : generateD circ nv S 0 = .ok D)
    (hA : (shifted n M D shift).det ≠ 0) :
    (tcm (shifted n M D shift)⁻¹ nv (reactive circ 0)).det ≠ 0 ↔
      (circuitPoly n M D).natDegree = (reactive circ 0).length := by
  have hu : IsUnit (shifted n M D shift).det := isUnit_iff_ne_zero.mpr hA
  have hW := Matrix.mul_nonsing_inv _ hu
  set T := tcm (shifted n M D shift)⁻¹ nv (reactive circ 0)
  have e : (circuitPoly n M D).comp (X + C shift) = C (shifted n M D shift).det * T.charpolyRev := by
    refine Polynomial.funext (fun σ => ?_)
    rw [Polynomial.eval_comp, Polynomial.eval_mul, Polynomial.eval_C, eval_charpolyRev']
    have := C62_det (n := n) M shift σ h0 hn hc hS hD hW
    have e2 : ((X : α[X]) + C shift).eval σ = shift + σ := by simp [add_comm]
    rw [e2, eval_circuitPoly]
    exact this
  have e3 : (circuitPoly n M D).natDegree = T.charpolyRev.natDegree := by
    have := congrArg Polynomial.natDegree e
    rw [Polynomial.natDegree_comp, Polynomial.natDegree_X_add_C, mul_one,
      Polynomial.natDegree_C_mul hA] at this
    exact this
  have := (natDegree_charpolyRev T).2
  rw [Fintype.card_fin] at this
  rw [e3, this]

variable [DecidableEq α]

/-- C115: a run for the poles reports iff the circuit has as many natural frequencies as reactive
elements; no choice of the shift can make a difference. Missing: circuits with fewer (see the
refutations) and runs with zeros. -/
theorem C115_poles_partial [Infinite α] {D : Mat α} (M : Mat α) (shift : α) (h0 : 0 < nv)
    (hn : ∀ e ∈ circ, NodesLt nv e) (hc : ∀ e ∈ circ, NoCoup e)
    (hS : nv + (vdes circ).length ≤ n + 1) (hD : generateD circ nv S 0 = .ok D)
    (hA : (shifted n M D shift).det ≠ 0) :
    ((circuitPoly n M D).natDegree = (reactive circ 0).length →
      polesRun n nv M D (reactive circ 0) shift = .ok .done) ∧
    ((circuitPoly n M D).natDegree ≠ (reactive circ 0).length →
      polesRun n nv M D (reactive circ 0) shift = .ok .retryAdd) := by
  have h := det_tcm_iff M shift h0 hn hc hS hD hA
  constructor
  · intro hd
    unfold polesRun
    rw [if_neg hA, if_neg]
    exact fun hh => h.mpr hd hh.2
  · intro hd
    unfold polesRun
    have hz : (tcm (shifted n M D shift)⁻¹ nv (reactive circ 0)).det = 0 := by
      by_contra hz
      exact hd (h.mp hz)
    rw [if_neg hA, if_pos]
    refine ⟨fun hl => ?_, hz⟩
    have : IsEmpty (Fin (reactive circ 0).length) := by rw [hl]; infer_instance
    rw [Matrix.det_isEmpty] at hz
    exact one_ne_zero hz

end Ends

section Chain
variable {K : Type} [Field K] [LinearOrder K]

/-- a run that reports at once -/
theorem C115_done (run : K → Except Err Outcome) (r : Nat → K) (k fuel : Nat) {shift : K}
    (h : run shift = .ok .done) : chain run r (fuel + 1) k shift = .ok (some shift) := by
  simp [chain, h]

/-- the shifts of the calls after products, each with a new random number -/
def mulShift (r : Nat → K) (k : Nat) (shift : K) : Nat → K
  | 0 => shift
  | i + 1 => mulShift r k shift i * (10 * |1 + r (k + i)|)

/-- the shifts of the calls after sums, each with a new random number -/
def addShift (r : Nat → K) (k : Nat) (shift : K) : Nat → K
  | 0 => shift
  | i + 1 => addShift r k shift i + 1000 * |1 + r (k + i)|

/-- C115: every further call draws a new random number: the run that reports after `i` singular matrices has the shift multiplied
by `i` factors, or raised by `i` terms, of different numbers. -/
theorem C115_shifts (run : K → Except Err Outcome) (r : Nat → K) (i fuel : Nat) (hf : i < fuel) : ∀ (k : Nat) (shift : K),
    ((∀ j < i, run (mulShift r k shift j) = .ok .retryMul) → run (mulShift r k shift i) = .ok .done →
      chain run r fuel k shift = .ok (some (mulShift r k shift i))) ∧
    ((∀ j < i, run (addShift r k shift j) = .ok .retryAdd) → run (addShift r k shift i) = .ok .done →
      chain run r fuel k shift = .ok (some (addShift r k shift i))) := by
  have hm : ∀ (k : Nat) (shift : K) (j : Nat), mulShift r (k + 1) (shift * (10 * |1 + r k|)) j = mulShift r k shift (j + 1) := by
    intro k shift j
    induction j with
    | zero => rfl
    | succ j ih => rw [mulShift, ih, Nat.add_right_comm k 1 j]; rfl
  have ha : ∀ (k : Nat) (shift : K) (j : Nat), addShift r (k + 1) (shift + 1000 * |1 + r k|) j = addShift r k shift (j + 1) := by
    intro k shift j
    induction j with
    | zero => rfl
    | succ j ih => rw [addShift, ih, Nat.add_right_comm k 1 j]; rfl
  induction i generalizing fuel with
  | zero =>
    obtain ⟨f, rfl⟩ : ∃ f, fuel = f + 1 := ⟨fuel - 1, by omega⟩
    intro k shift
    exact ⟨fun _ h => C115_done run r k f h, fun _ h => C115_done run r k f h⟩
  | succ i ih =>
    obtain ⟨f, rfl⟩ : ∃ f, fuel = f + 1 := ⟨fuel - 1, by omega⟩
    intro k shift
    constructor
    · intro h1 h2
      have h0 : run shift = .ok .retryMul := h1 0 (by omega)
      have e : shift * |r k + 1| * 10 = shift * (10 * |1 + r k|) := by rw [add_comm (r k)]; ring
      simp only [chain, h0]
      rw [e, (ih f (by omega) (k + 1) _).1, hm]
      · intro j hj
        rw [hm]
        exact h1 (j + 1) (by omega)
      · rw [hm]
        exact h2
    · intro h1 h2
      have h0 : run shift = .ok .retryAdd := h1 0 (by omega)
      have e : shift + |1 + r k| * 1000 = shift + 1000 * |1 + r k| := by ring
      simp only [chain, h0]
      rw [e, (ih f (by omega) (k + 1) _).2, ha]
      · intro j hj
        rw [ha]
        exact h1 (j + 1) (by omega)
      · rw [ha]
        exact h2

/-- one singular matrix, then a report -/
example : chain (fun s : ℚ => if s = 1 then .ok .retryMul else .ok .done) (fun k => k) 5 3 1 = .ok (some 40) := by decide +kernel

/-- without a report the chain of calls does not end -/
theorem chain_never (run : K → Except Err Outcome) (r : Nat → K) (h : ∀ s, run s ≠ .ok .done) :
    ∀ fuel k shift s, chain run r fuel k shift ≠ .ok (some s) := by
  intro fuel
  induction fuel with
  | zero => intro k shift s; simp [chain]
  | succ f ih =>
    intro k shift s
    simp only [chain]
    have := h shift
    rcases hr : run shift with x | o
    · simp
    · cases o with
      | done => exact absurd hr this
      | retryAdd => exact ih _ _ s
      | retryMul => exact ih _ _ s

variable {n nv S : Nat} {circ : List (Elem K)}

/-- C115 refuted, a class of circuits: with fewer natural frequencies than reactive elements (a loop of
capacitors and voltage sources, a cut set of inductors and current sources) the analysis never returns a result,
whatever the initial shift and the random numbers. -/
theorem C115_degenerate_refuted [Infinite K] {D : Mat K} (M : Mat K) (h0 : 0 < nv)
    (hn : ∀ e ∈ circ, NodesLt nv e) (hc : ∀ e ∈ circ, NoCoup e)
    (hS : nv + (vdes circ).length ≤ n + 1) (hD : generateD circ nv S 0 = .ok D)
    (hdeg : (circuitPoly n M D).natDegree < (reactive circ 0).length) (r : Nat → K) :
    ∀ fuel k shift s, chain (polesRun n nv M D (reactive circ 0)) r fuel k shift ≠ .ok (some s) := by
  apply chain_never
  intro s hs
  by_cases hA : (shifted n M D s).det = 0
  · unfold polesRun at hs
    rw [if_pos hA] at hs
    exact absurd hs (by simp)
  · have := (C115_poles_partial M s h0 hn hc hS hD hA).2 (by omega)
    rw [this] at hs
    exact absurd hs (by simp)

/-- multiplying a null shift does not change it -/
theorem C115_zero_shift (run : K → Except Err Outcome) (r : Nat → K) (h : run 0 = .ok .retryMul) :
    ∀ fuel k, chain run r fuel k 0 = .ok none := by
  intro fuel
  induction fuel with
  | zero => intro k; rfl
  | succ f ih => intro k; simp [chain, h, ih]

end Chain

/-- a capacitor across an ideal voltage source -/
def capDemo : List (Elem ℚ) := [.V "V1" 1 0 { dc := some 1 }, .C "C1" 1 0 1 none]

theorem capDemo_shifted (s : ℚ) : shifted 2 (matOf capDemo 2) (dynOf capDemo 2 3) s = !![s, 1; 1, 0] := by
  ext i j
  have h1 : (red 2 (matOf capDemo 2)) = !![0, 1; 1, 0] := by decide +kernel
  have h2 : (red 2 (dynOf capDemo 2 3)) = !![1, 0; 0, 0] := by decide +kernel
  unfold shifted
  rw [h1, h2]
  fin_cases i <;> fin_cases j <;> simp

/-- C115 refuted: a capacitor across an ideal voltage source; the determinant is `-1` at every shift,
so no exception ends the recursion either. -/
theorem C115_capacitor_refuted (r : Nat → ℚ) (fuel k : Nat) (shift : ℚ) :
    chain (polesRun 2 2 (matOf capDemo 2) (dynOf capDemo 2 3) (reactive capDemo 0)) r fuel k shift = .ok none := by
  have key : ∀ s, polesRun 2 2 (matOf capDemo 2) (dynOf capDemo 2 3) (reactive capDemo 0) s = .ok .retryAdd := by
    intro s
    have hd : (shifted 2 (matOf capDemo 2) (dynOf capDemo 2 3) s).det = -1 := by
      rw [capDemo_shifted]; simp [Matrix.det_fin_two]
    have hi : (shifted 2 (matOf capDemo 2) (dynOf capDemo 2 3) s)⁻¹ = !![0, 1; 1, -s] := by
      apply Matrix.inv_eq_right_inv
      rw [capDemo_shifted]
      ext i j
      fin_cases i <;> fin_cases j <;> simp
    unfold polesRun
    rw [hd, hi, if_neg (by norm_num), if_pos]
    refine ⟨by decide, ?_⟩
    have : tcm !![0, 1; 1, -s] 2 (reactive capDemo 0) = 0 := by
      ext i j
      have hi : i = ⟨0, by decide⟩ := by have := i.2; ext; change i.val < 1 at this; simp; omega
      have hj : j = ⟨0, by decide⟩ := by have := j.2; ext; change j.val < 1 at this; simp; omega
      subst hi hj
      simp [tcm, reactive, capDemo, isReactive, probe, portV, tv, mc, incidence, valueOf]
      rfl
    rw [this]
    have : Nonempty (Fin (reactive capDemo 0).length) := ⟨⟨0, by decide⟩⟩
    exact Matrix.det_zero
  induction fuel generalizing k shift with
  | zero => rfl
  | succ f ih => simp [chain, key, ih]

/-- an output that no reactive element can influence: node 1, at the source -/
def outDemo : List (Elem ℚ) :=
  [.V "V1" 1 0 { dc := some 1 }, .R "R1" 1 2 1, .C "C1" 2 0 1 none]

def outInv : Matrix (Fin 3) (Fin 3) ℚ := !![0, 0, 1; 0, 1, 1; 1, 1, 0]

/-- C115 refuted: an RC filter with the output taken at the input source, at the default shift 0. -/
theorem C115_output_refuted (r : Nat → ℚ) (fuel k : Nat) :
    chain (zerosRun 3 3 (matOf outDemo 3) (dynOf outDemo 3 4) (reactive outDemo 0)
      (0, .V "V1" 1 0 { dc := some 1 }) 1 0 (10 ^ 12)) r fuel k 0 = .ok none := by
  apply C115_zero_shift
  have hm : shifted 3 (matOf outDemo 3) (dynOf outDemo 3 4) 0 * outInv = 1 := by
    unfold shifted; decide +kernel
  have hi := Matrix.inv_eq_right_inv hm
  have hd : (shifted 3 (matOf outDemo 3) (dynOf outDemo 3 4) 0).det ≠ 0 := by
    intro h
    have := congrArg Matrix.det hm
    rw [Matrix.det_mul, h, zero_mul, Matrix.det_one] at this
    exact zero_ne_one this
  have hro : rout outInv 3 (reactive outDemo 0) 1 0 = 0 := by decide +kernel
  have hdt : (tcm outInv 3 (reactive outDemo 0)).det ≠ 0 := by
    have : tcm outInv 3 (reactive outDemo 0) = -1 := by decide +kernel
    rw [this, Matrix.det_neg, Matrix.det_one]
    simp
  unfold zerosRun
  rw [hi, if_neg hd, if_neg (by decide), if_neg hdt, hro]
  simp

/-- the inverse for the RC filter of `outDemo` at the shift `s` -/
def outInvAt (s : ℚ) : Matrix (Fin 3) (Fin 3) ℚ :=
  !![0, 0, 1; 0, 1 / (1 + s), 1 / (1 + s); 1, 1 / (1 + s), 1 / (1 + s) - 1]

theorem outDemo_shifted (s : ℚ) :
    shifted 3 (matOf outDemo 3) (dynOf outDemo 3 4) s = !![1, -1, 1; -1, 1 + s, 0; 1, 0, 0] := by
  ext i j
  have h1 : (red 3 (matOf outDemo 3)) = !![1, -1, 1; -1, 1, 0; 1, 0, 0] := by decide +kernel
  have h2 : (red 3 (dynOf outDemo 3 4)) = !![0, 0, 0; 0, 1, 0; 0, 0, 0] := by decide +kernel
  unfold shifted
  rw [h1, h2]
  fin_cases i <;> fin_cases j <;> simp

/-- C115 refuted: the same filter with the output across the capacitor. It has no zero, so `ZTCM` is
null at every shift: the search for a better shift does not end. (With floating-point numbers it ends when
a rounding error makes `ZTCM` different from zero.) -/
theorem C115_lowpass_refuted (r : Nat → ℚ) (fuel k : Nat) {shift : ℚ} (hs : 0 ≤ shift) :
    chain (zerosRun 3 3 (matOf outDemo 3) (dynOf outDemo 3 4) (reactive outDemo 0)
      (0, .V "V1" 1 0 { dc := some 1 }) 2 0 (10 ^ 12)) r fuel k shift = .ok none := by
  have key : ∀ s : ℚ, 0 ≤ s → zerosRun 3 3 (matOf outDemo 3) (dynOf outDemo 3 4) (reactive outDemo 0)
      (0, .V "V1" 1 0 { dc := some 1 }) 2 0 (10 ^ 12) s = .ok .retryAdd := by
    intro s hs
    have hne : 1 + s ≠ 0 := by positivity
    have hm : shifted 3 (matOf outDemo 3) (dynOf outDemo 3 4) s * outInvAt s = 1 := by
      rw [outDemo_shifted, outInvAt]
      ext i j
      fin_cases i <;> fin_cases j <;> simp [Matrix.mul_apply, Fin.sum_univ_three, hne]
      ring
    have hi := Matrix.inv_eq_right_inv hm
    have hd : (shifted 3 (matOf outDemo 3) (dynOf outDemo 3 4) s).det ≠ 0 := by
      intro h
      have := congrArg Matrix.det hm
      rw [Matrix.det_mul, h, zero_mul, Matrix.det_one] at this
      exact zero_ne_one this
    have idx : ∀ i : Fin (reactive outDemo 0).length, i = ⟨0, by decide⟩ := by
      intro i
      have := i.2
      ext
      change i.val < 1 at this
      simp only
      omega
    have ht : tcm (outInvAt s) 3 (reactive outDemo 0) = Matrix.scalar _ (-(1 / (1 + s))) := by
      ext i j
      rw [idx i, idx j]
      change portV 2 0 (tv (outInvAt s) (incidence 2 0)) * 1 = _
      simp [portV, tv, incidence, outInvAt, Fin.sum_univ_three]
    have hdt : (tcm (outInvAt s) 3 (reactive outDemo 0)).det ≠ 0 := by
      rw [ht, Matrix.scalar_apply, Matrix.det_diagonal]
      exact Finset.prod_ne_zero_iff.mpr (fun _ _ => neg_ne_zero.mpr (one_div_ne_zero hne))
    have hro : ∀ j, rout (outInvAt s) 3 (reactive outDemo 0) 2 0 j = -(1 / (1 + s)) := by
      intro j
      rw [idx j]
      change portV 2 0 (tv (outInvAt s) (incidence 2 0)) * 1 = _
      simp [portV, tv, incidence, outInvAt, Fin.sum_univ_three]
    have hri : ∀ i, riin (outInvAt s) 3 (reactive outDemo 0) (0, .V "V1" 1 0 { dc := some 1 }) i =
        1 / (1 + s) := by
      intro i
      rw [idx i]
      change portV 2 0 (tv (outInvAt s) (fun i => if i = 3 then -1 else 0)) = _
      simp [portV, tv, outInvAt, Fin.sum_univ_three]
    have hin : routin (outInvAt s) 3 ((0, .V "V1" 1 0 { dc := some 1 }) : Nat × Elem ℚ) 2 0 = 1 / (1 + s) := by
      change portV 2 0 (tv (outInvAt s) (fun i => if i = 3 then -1 else 0)) = _
      simp [portV, tv, outInvAt, Fin.sum_univ_three]
    have hz : ztcm (outInvAt s) 3 (reactive outDemo 0) (0, .V "V1" 1 0 { dc := some 1 }) 2 0 = 0 := by
      ext i j
      unfold ztcm
      rw [Matrix.of_apply, ht, hro, hri, hin, idx i, idx j]
      simp only [Matrix.scalar_apply, Matrix.diagonal_apply_eq, Matrix.zero_apply]
      field_simp
      ring
    have hN : Nonempty (Fin (reactive outDemo 0).length) := ⟨⟨0, by decide⟩⟩
    unfold zerosRun
    rw [hi, if_neg hd, if_neg (by decide), if_neg hdt, hz, Matrix.det_zero, if_pos, if_pos (.inr rfl)]
    intro h
    have := congrFun h ⟨0, by decide⟩
    rw [hro] at this
    exact neg_ne_zero.mpr (one_div_ne_zero hne) this
  induction fuel generalizing k shift with
  | zero => rfl
  | succ f ih =>
    simp only [chain, key shift hs]
    exact ih _ (by positivity)

end Verif.Pz
