import Verif.Props.Scale
import Verif.Props.Bound

/-!
Property C169: scaling of impedances. A circuit all whose impedances are multiplied by `k` has the same voltages, and
its currents are divided by `k`.
-/

namespace Verif.Imp
open Verif.Circuit Verif.Mna Verif.Dyn Verif.Scale

section
variable {α : Type} [Field α]

/-- a current source, its current divided by `k` -/
def lessSrc (k : α) (s : Src α) : Src α :=
  { dc := s.dc.map fun v => k⁻¹ * v
    ac := s.ac.map fun v => k⁻¹ * v
    timeDep := s.timeDep
    fn := s.fn.map fun f t => k⁻¹ * f t }

/-- the element, its impedance multiplied by `k` -/
def raise (k : α) : Elem α → Elem α
  | .R id n1 n2 v => .R id n1 n2 (k * v)
  | .C id n1 n2 v ic => .C id n1 n2 (k⁻¹ * v) ic
  | .L id n1 n2 v ic coup => .L id n1 n2 (k * v) (ic.map fun i => k⁻¹ * i) (coup.map fun c => { c with M := k * c.M })
  | .K c => .K { c with M := k * c.M }
  | .I id n1 n2 src => .I id n1 n2 (lessSrc k src)
  | .G id n1 n2 sn1 sn2 a => .G id n1 n2 sn1 sn2 (k⁻¹ * a)
  | .H id n1 n2 src a => .H id n1 n2 src (k * a)
  | e => e

/-- factor of an equation: the sums of currents are divided by `k` -/
def rowF (k : α) (nv i : Nat) : α := if i < nv then k⁻¹ else 1

/-- factor of an unknown: the unknown currents are divided by `k` -/
def colF (k : α) (nv i : Nat) : α := if i < nv then 1 else k

def scaleM (k : α) (nv : Nat) (M : Mat α) : Mat α := fun i j => rowF k nv i * colF k nv j * M i j
def scaleV (k : α) (nv : Nat) (N : Vec α) : Vec α := fun i => rowF k nv i * N i

theorem put_scale (k : α) (nv : Nat) (M : Mat α) (i j : Nat) (v w : α) (h : w = rowF k nv i * colF k nv j * v) :
    (scaleM k nv M).put i j w = scaleM k nv (M.put i j v) := by
  funext a b
  simp only [scaleM, Mat.put]
  split
  · rename_i hab; rw [hab.1, hab.2, h]
  · rfl

theorem add_scale (k : α) (nv : Nat) (M : Mat α) (i j : Nat) (v w : α) (h : w = rowF k nv i * colF k nv j * v) :
    (scaleM k nv M).add i j w = scaleM k nv (M.add i j v) := by
  unfold Mat.add
  apply put_scale
  rw [h]; simp only [scaleM]; ring

theorem putV_scale (k : α) (nv : Nat) (N : Vec α) (i : Nat) (v w : α) (h : w = rowF k nv i * v) :
    Vec.put (scaleV k nv N) i w = scaleV k nv (Vec.put N i v) := by
  funext a
  simp only [scaleV, Vec.put]
  split
  · rename_i hab; rw [hab, h]
  · rfl

theorem addV_scale (k : α) (nv : Nat) (N : Vec α) (i : Nat) (v w : α) (h : w = rowF k nv i * v) :
    Vec.add (scaleV k nv N) i w = scaleV k nv (Vec.add N i v) := by
  unfold Vec.add
  apply putV_scale
  rw [h]; simp only [scaleV]; ring

theorem raise_vde (k : α) (e : Elem α) : (raise k e).vde = e.vde := by cases e <;> rfl
theorem raise_id (k : α) (e : Elem α) : (raise k e).id = e.id := by cases e <;> rfl

theorem find_raise (k : α) (circ : List (Elem α)) (p : String) :
    findVdeIndex (circ.map (raise k)) p = findVdeIndex circ p := by
  unfold findVdeIndex
  generalize 0 = n
  induction circ generalizing n with
  | nil => rfl
  | cons e r ih => simp only [List.map_cons, findVdeIndexAux, raise_vde, raise_id, ih]

/-- a loop over states that correspond to each other, with an invariant -/
theorem loop_inv {σ ε ι : Type} (f g : σ → ι → Except ε σ) (h : ι → ι) (p : σ → σ) (I : σ → Prop) (J : ι → Prop)
    (H : ∀ s e, I s → J e → f (p s) (h e) = (g s e).map p) (H' : ∀ s e s', I s → J e → g s e = .ok s' → I s') (s : σ)
    (hs : I s) (l : List ι) (hl : ∀ e ∈ l, J e) :
    loop f (p s) (l.map h) = (loop g s l).map p ∧ ∀ s', loop g s l = .ok s' → I s' := by
  induction l generalizing s with
  | nil => exact ⟨rfl, fun s' h => by cases h; exact hs⟩
  | cons e l ih =>
    have he := hl e (by simp)
    simp only [List.map_cons, loop, H s e hs he]
    cases hg : g s e with
    | ok s' => exact ih s' (H' s e s' hs he hg) fun x hx => hl x (List.mem_cons_of_mem _ hx)
    | error x => exact ⟨rfl, fun s' h => by cases h⟩

def scaleS (k : α) (nv : Nat) (s : Sys α) : Sys α := ⟨s.size, scaleM k nv s.M, scaleV k nv s.N⟩

theorem eval_less (k : α) (src : Src α) (t : Option α) : (lessSrc k src).eval t = (src.eval t).map fun v => k⁻¹ * v := by
  unfold Src.eval
  obtain ⟨dc, ac, td, fn⟩ := src
  cases td <;> cases fn <;> cases dc <;> cases t <;> simp [lessSrc]

theorem stamp1_raise (k : α) (nv : Nat) (s : Sys α) (e : Elem α) (he : NodesLt nv e) :
    stamp1 (scaleS k nv s) (raise k e) = (stamp1 s e).map (scaleS k nv) := by
  have nn : ∀ i j, i < nv → j < nv → ∀ v : α, k⁻¹ * v = rowF k nv i * colF k nv j * v := by
    intro i j hi hj v
    simp [rowF, colF, hi, hj]
  have n1 : ∀ i, i < nv → ∀ v : α, k⁻¹ * v = rowF k nv i * v := by
    intro i hi v
    simp [rowF, hi]
  cases e with
  | R id a b v =>
    have e1 : 1 / (k * v) = k⁻¹ * (1 / v) := by rw [one_div, mul_inv, one_div]
    have e2 : -(k⁻¹ * (1 / v)) = k⁻¹ * (-(1 / v)) := by ring
    simp only [raise, stamp1, Except.map, scaleS, e1, e2]
    rw [add_scale _ _ _ _ _ _ _ (nn a a he.1 he.1 _), add_scale _ _ _ _ _ _ _ (nn a b he.1 he.2 _),
      add_scale _ _ _ _ _ _ _ (nn b a he.2 he.1 _), add_scale _ _ _ _ _ _ _ (nn b b he.2 he.2 _)]
  | G id a b c d v =>
    obtain ⟨h1, h2, h3, h4⟩ := he
    have e2 : -(k⁻¹ * v) = k⁻¹ * (-v) := by ring
    simp only [raise, stamp1, Except.map, scaleS, e2]
    rw [add_scale _ _ _ _ _ _ _ (nn a c h1 h3 _), add_scale _ _ _ _ _ _ _ (nn a d h1 h4 _),
      add_scale _ _ _ _ _ _ _ (nn b c h2 h3 _), add_scale _ _ _ _ _ _ _ (nn b d h2 h4 _)]
  | I id a b src =>
    have ht : (lessSrc k src).timeDep = src.timeDep := rfl
    simp only [raise, stamp1, ht, eval_less]
    cases src.timeDep with
    | true => rfl
    | false =>
      simp only [Bool.false_eq_true, if_false]
      cases src.eval none with
      | none => rfl
      | some i =>
        simp only [Option.map_some, Except.map, scaleS]
        have e2 : -(k⁻¹ * i) = k⁻¹ * (-i) := by ring
        rw [e2, addV_scale _ _ _ _ _ _ (n1 a he.1 _), addV_scale _ _ _ _ _ _ (n1 b he.2 _)]
  | _ => rfl

theorem stamp1_size (s s' : Sys α) (e : Elem α) (h : stamp1 s e = .ok s') : s'.size = s.size := by
  cases e with
  | I id a b src =>
    simp only [stamp1] at h
    split at h
    · cases h; rfl
    · split at h
      · cases h; rfl
      · cases h
  | _ => simp only [stamp1] at h; cases h; rfl

theorem stamp2_raise {k : α} (hk : k ≠ 0) (circ : List (Elem α)) (nv : Nat) (s : Sys α) (hs : nv ≤ s.size) (e : Elem α)
    (he : NodesLt nv e) :
    stamp2 (circ.map (raise k)) nv (scaleS k nv s) (raise k e) = (stamp2 circ nv s e).map (scaleS k nv) := by
  have nb : ∀ i, i < nv → ∀ v : α, v = rowF k nv i * colF k nv s.size * v := by
    intro i hi v
    simp [rowF, colF, hi, Nat.not_lt.2 hs, hk]
  have bn : ∀ i, i < nv → ∀ v : α, v = rowF k nv s.size * colF k nv i * v := by
    intro i hi v
    simp [rowF, colF, hi, Nat.not_lt.2 hs]
  have kcl : ∀ a b, a < nv → b < nv →
      ((((scaleM k nv s.M).put a s.size 1).put b s.size (-1)).put s.size a 1).put s.size b (-1) =
        scaleM k nv ((((s.M.put a s.size 1).put b s.size (-1)).put s.size a 1).put s.size b (-1)) := by
    intro a b ha hb
    rw [put_scale _ _ _ _ _ _ _ (nb a ha 1), put_scale _ _ _ _ _ _ _ (nb b hb (-1)),
      put_scale _ _ _ _ _ _ _ (bn a ha 1), put_scale _ _ _ _ _ _ _ (bn b hb (-1))]
  cases e with
  | V id a b src =>
    simp only [raise, stamp2]
    split
    · simp only [Except.map, scaleS, kcl a b he.1 he.2]
    · cases src.eval none with
      | none => rfl
      | some v =>
        simp only [Except.map, scaleS, kcl a b he.1 he.2]
        rw [putV_scale _ _ _ _ (-v)]
        simp [rowF, Nat.not_lt.2 hs]
  | E id a b c d v =>
    obtain ⟨h1, h2, h3, h4⟩ := he
    simp only [raise, stamp2, Except.map, scaleS, kcl a b h1 h2]
    rw [put_scale _ _ _ _ _ _ _ (bn c h3 _), put_scale _ _ _ _ _ _ _ (bn d h4 _)]
  | L id a b v ic coup => simp only [raise, stamp2, Except.map, scaleS, kcl a b he.1 he.2]
  | H id a b src v =>
    simp only [raise, stamp2, find_raise]
    cases findVdeIndex circ src with
    | error x => rfl
    | ok j =>
      simp only
      by_cases hj : nv + j < s.size + 1
      · have hj' : nv + j < (scaleS k nv s).size + 1 := hj
        rw [if_pos hj, if_pos hj']
        simp only [Except.map, scaleS, kcl a b he.1 he.2]
        rw [put_scale k nv _ s.size (nv + j) v (k * v) (by simp [rowF, colF, Nat.not_lt.2 hs])]
      · have hj' : ¬ nv + j < (scaleS k nv s).size + 1 := hj
        rw [if_neg hj, if_neg hj']; rfl
  | _ => rfl

theorem stamp2_size (circ : List (Elem α)) (nv : Nat) (s s' : Sys α) (e : Elem α) (h : stamp2 circ nv s e = .ok s') :
    s.size ≤ s'.size := by
  cases e with
  | V id a b src =>
    simp only [stamp2] at h
    split at h
    · cases h; simp
    · split at h
      · cases h; simp
      · cases h
  | H id a b src v =>
    simp only [stamp2] at h
    split at h
    · split at h
      · cases h; simp
      · cases h
    · cases h
  | _ => simp only [stamp2] at h; cases h; simp

theorem stamp3_raise {k : α} (hk : k ≠ 0) (circ : List (Elem α)) (nv : Nat) (s : Sys α) (e : Elem α) (he : NodesLt nv e) :
    stamp3 (circ.map (raise k)) nv (scaleS k nv s) (raise k e) = (stamp3 circ nv s e).map (scaleS k nv) := by
  cases e with
  | F id a b src v =>
    simp only [raise, stamp3, find_raise]
    cases findVdeIndex circ src with
    | error x => rfl
    | ok j =>
      simp only [Except.map, scaleS]
      rw [add_scale _ _ _ _ _ v v, add_scale _ _ _ _ _ (-v) (-v)]
      · simp [rowF, colF, he.2, hk]
      · simp [rowF, colF, he.1, hk]
  | _ => rfl

/-- C169: raising the impedances divides the equations of the nodes and multiplies the columns of the currents. -/
theorem C169_static {k : α} (hk : k ≠ 0) (circ : List (Elem α)) (nv : Nat) (he : ∀ e ∈ circ, NodesLt nv e) :
    generate (circ.map (raise k)) nv = (generate circ nv).map fun s =>
      ⟨s.size, fun i j => (if i < nv then k⁻¹ else 1) * (if j < nv then 1 else k) * s.M i j,
        fun i => (if i < nv then k⁻¹ else 1) * s.N i⟩ := by
  have h1 := loop_inv stamp1 stamp1 (raise k) (scaleS k nv) (fun s => nv ≤ s.size) (NodesLt nv)
    (fun s e _ he => stamp1_raise k nv s e he) (fun s e s' hs _ h => by rw [stamp1_size s s' e h]; exact hs)
    ⟨nv, fun _ _ => 0, fun _ => 0⟩ (le_refl nv) circ he
  have h0 : scaleS k nv (⟨nv, fun _ _ => 0, fun _ => 0⟩ : Sys α) = ⟨nv, fun _ _ => 0, fun _ => 0⟩ := by
    unfold scaleS
    congr 1
    · funext i j; simp [scaleM]
    · funext i; simp [scaleV]
  rw [h0] at h1
  unfold generate
  rw [h1.1]
  cases hl1 : loop stamp1 ⟨nv, fun _ _ => 0, fun _ => 0⟩ circ with
  | error x => rfl
  | ok s1 =>
    simp only [Except.map]
    have h2 := loop_inv (stamp2 (circ.map (raise k)) nv) (stamp2 circ nv) (raise k) (scaleS k nv) (fun s => nv ≤ s.size)
      (NodesLt nv) (fun s e hs he => stamp2_raise hk circ nv s hs e he)
      (fun s e s' hs _ h => le_trans hs (stamp2_size circ nv s s' e h)) s1 (h1.2 s1 hl1) circ he
    rw [h2.1]
    cases loop (stamp2 circ nv) s1 circ with
    | error x => rfl
    | ok s2 =>
      simp only [Except.map]
      have h3 := loop_inv (stamp3 (circ.map (raise k)) nv) (stamp3 circ nv) (raise k) (scaleS k nv) (fun _ => True)
        (NodesLt nv) (fun s e _ he => stamp3_raise hk circ nv s e he) (fun _ _ _ _ _ _ => trivial) s2 trivial circ he
      rw [h3.1]
      rfl

theorem dstep_raise {k : α} (circ : List (Elem α)) (nv : Nat) (s : DState α) (e : Elem α) (he : NodesLt nv e) :
    dStep (circ.map (raise k)) nv ⟨scaleM k nv s.D, s.iEq⟩ (raise k e) =
      (dStep circ nv s e).map fun s => ⟨scaleM k nv s.D, s.iEq⟩ := by
  have nn : ∀ i j, i < nv → j < nv → ∀ v : α, k⁻¹ * v = rowF k nv i * colF k nv j * v := by
    intro i j hi hj v
    simp [rowF, colF, hi, hj]
  cases e with
  | L id n1 n2 v ic coup =>
    simp only [raise, dStep]
    rw [put_scale k nv s.D (nv + s.iEq) (nv + s.iEq) (-1 * v) (-1 * (k * v)) (by simp [rowF, colF]),
      loop_rel (couplings (circ.map (raise k)) nv (nv + s.iEq) id) (couplings circ nv (nv + s.iEq) id) _ (scaleM k nv)]
    · cases loop (couplings circ nv (nv + s.iEq) id) (s.D.put (nv + s.iEq) (nv + s.iEq) (-1 * v)) coup <;> rfl
    · intro D c
      simp only [couplings, find_raise]
      have : Coupling.other { c with M := k * c.M } id = c.other id := rfl
      rw [this]
      cases c.other id with
      | error x => rfl
      | ok o =>
        simp only
        cases findVdeIndex circ o with
        | error x => rfl
        | ok j =>
          simp only [Except.map]
          rw [add_scale k nv D (nv + s.iEq) (nv + j) (-1 * c.M) (-1 * (k * c.M)) (by simp [rowF, colF])]
  | C id a b v ic =>
    have e2 : -(k⁻¹ * v) = k⁻¹ * (-v) := by ring
    simp only [raise, dStep, Except.map, e2]
    rw [add_scale _ _ _ _ _ _ _ (nn a a he.1 he.1 _), add_scale _ _ _ _ _ _ _ (nn a b he.1 he.2 _),
      add_scale _ _ _ _ _ _ _ (nn b b he.2 he.2 _), add_scale _ _ _ _ _ _ _ (nn b a he.2 he.1 _)]
  | _ => simp [raise, dStep, Except.map, Elem.vde]

/-- C169: the same for the matrix of the dynamic elements, without added capacitance. -/
theorem C169_dynamic_partial {k : α} (circ : List (Elem α)) (nv S : Nat) (he : ∀ e ∈ circ, NodesLt nv e) :
    generateD (circ.map (raise k)) nv S 0 = (generateD circ nv S 0).map fun D =>
      fun i j => (if i < nv then k⁻¹ else 1) * (if j < nv then 1 else k) * D i j := by
  have h := (loop_inv (dStep (circ.map (raise k)) nv) (dStep circ nv) (raise k)
    (fun s : DState α => (⟨scaleM k nv s.D, s.iEq⟩ : DState α)) (fun _ => True) (NodesLt nv)
    (fun s e _ he => dstep_raise circ nv s e he) (fun _ _ _ _ _ _ => trivial) ⟨fun _ _ => 0, 0⟩ trivial circ he).1
  have h0 : (⟨scaleM k nv fun _ _ => 0, 0⟩ : DState α) = ⟨fun _ _ => 0, 0⟩ := by
    congr 1
    funext i j
    simp [scaleM]
  simp only [h0] at h
  unfold generateD
  rw [h]
  cases loop (dStep circ nv) ⟨fun _ _ => 0, 0⟩ circ with
  | error x => rfl
  | ok s =>
    simp only [Except.map, scaleM, zero_mul, add_zero]
    rfl

end

/-! ### Operating points -/

section
open Matrix Verif.Rlc Verif.Bound
variable {K : Type} [Field K] [LinearOrder K] [IsStrictOrderedRing K] {m : Nat}

/-- equations that are multiplied and unknowns that are divided -/
theorem solve_scaled {L : Type} [Field L] {p q : Fin m → L} (hp : ∀ i, p i ≠ 0) (hq : ∀ i, q i ≠ 0)
    (A B : Matrix (Fin m) (Fin m) L) (hB : ∀ i j, B i j = p i * q j * A i j) :
    (B.det ≠ 0 ↔ A.det ≠ 0) ∧
      ∀ (x N : Fin m → L), B *ᵥ (fun i => (q i)⁻¹ * x i) + (fun i => p i * N i) = 0 ↔ A *ᵥ x + N = 0 := by
  have e : B = diagonal p * A * diagonal q := by
    ext i j
    rw [mul_diagonal, diagonal_mul, hB]
    ring
  constructor
  · rw [e, det_mul, det_mul, det_diagonal, det_diagonal]
    have h1 : ∏ i, p i ≠ 0 := Finset.prod_ne_zero_iff.2 fun i _ => hp i
    have h2 : ∏ i, q i ≠ 0 := Finset.prod_ne_zero_iff.2 fun i _ => hq i
    constructor
    · intro h hA
      exact h (by rw [hA]; ring)
    · intro h
      exact mul_ne_zero (mul_ne_zero h1 h) h2
  · intro x N
    have row : ∀ i, (B *ᵥ (fun i => (q i)⁻¹ * x i) + (fun i => p i * N i)) i = p i * (A *ᵥ x + N) i := by
      intro i
      simp only [Pi.add_apply, Matrix.mulVec, dotProduct, mul_add, Finset.mul_sum]
      congr 1
      apply Finset.sum_congr rfl
      intro j _
      rw [hB]
      have := mul_inv_cancel₀ (hq j)
      linear_combination p i * A i j * x j * this
    constructor
    · intro h
      funext i
      have := row i
      rw [h] at this
      exact (mul_eq_zero.1 this.symm).resolve_left (hp i)
    · intro h
      funext i
      rw [row, h]
      simp

/-- C169: the operating points of a linear circuit that has one, with and without Gmin, and of the circuit with raised
impedances: same voltages, currents divided by the factor. -/
theorem C169_op_partial {k : K} (hk : k ≠ 0) (circ : List (Elem K)) (nv : Nat) (he : ∀ e ∈ circ, NodesLt nv e)
    {o : Op.OOpts K} (ho : Op.Plain o) (hm : o.meth.std = true) {s s' : Sys K} (h : generate circ nv = .ok s)
    (h' : generate (circ.map (raise k)) nv = .ok s') (gmin : K) (h0 : (reduce m s.M).det ≠ 0)
    (h1 : (reduce m s.M + Op.gminMat (nv - 1) gmin).det ≠ 0) (h2 : (reduce m s'.M + Op.gminMat (nv - 1) gmin).det ≠ 0)
    (x0 y0 : Option (Fin m → K)) :
    ∃ x : Fin m → K, Op.opAnalysis o (opCirc m nv s) gmin x0 = some (some ⟨x, 0⟩) ∧
      Op.opAnalysis o (opCirc m nv s') gmin y0 =
        some (some ⟨fun i => if i.val + 1 < nv then x i else x i / k, 0⟩) := by
  rw [C169_static hk circ nv he, h] at h'
  simp only [Except.map, Except.ok.injEq] at h'
  obtain ⟨x, e1, e2⟩ := Op.C119_linear ho hm (c := opCirc m nv s) ⟨rfl, rfl⟩ gmin h0 h1 x0
  have hp : ∀ i : Fin m, (if i.val + 1 < nv then k⁻¹ else 1 : K) ≠ 0 := by
    intro i; split
    · exact inv_ne_zero hk
    · exact one_ne_zero
  have hq : ∀ i : Fin m, (if i.val + 1 < nv then 1 else k : K) ≠ 0 := by
    intro i; split
    · exact one_ne_zero
    · exact hk
  obtain ⟨hd, hx⟩ := solve_scaled (p := fun i : Fin m => if i.val + 1 < nv then k⁻¹ else 1)
    (q := fun i : Fin m => if i.val + 1 < nv then 1 else k) hp hq (reduce m s.M) (reduce m s'.M)
    (fun i j => by rw [← h']; rfl)
  obtain ⟨y, e3, e4⟩ := Op.C119_linear ho hm (c := opCirc m nv s') ⟨rfl, rfl⟩ gmin (hd.2 h0) h2 y0
  refine ⟨x, e1, ?_⟩
  rw [e3]
  have e2' : reduce m s.M *ᵥ x + reduceV m s.N = 0 := by simpa [opCirc] using e2
  have e4' : reduce m s'.M *ᵥ y + reduceV m s'.N = 0 := by simpa [opCirc] using e4
  have hs := (hx x (reduceV m s.N)).2 e2'
  have hN : (fun i : Fin m => (if i.val + 1 < nv then k⁻¹ else 1) * reduceV m s.N i) = reduceV m s'.N := by
    funext i
    rw [← h']
    rfl
  rw [hN] at hs
  have := Newton.C15_unique _ _ _ _ (hd.2 h0) e4' hs
  rw [this]
  congr 3
  funext i
  split
  · simp
  · rw [div_eq_inv_mul]

end

/-! ### AC analysis -/

section
open Verif.Ac Matrix
variable {m : Nat}

/-- the circuit with impedances multiplied by `k`, Gmin included -/
noncomputable def raiseAc (k : ℝ) (c : AcIn m) : AcIn m :=
  let p : Fin m → ℝ := fun i => if i.val < c.nn then k⁻¹ else 1
  let q : Fin m → ℝ := fun i => if i.val < c.nn then 1 else k
  { mna := fun i j => p i * q j * c.mna i j
    AC := fun i j => p i * q j * c.AC i j
    J := fun i j => p i * q j * c.J i j
    Nac := fun i => (p i : ℂ) * c.Nac i
    nn := c.nn
    gmin := k⁻¹ * c.gmin }

theorem Y_raise {k : ℝ} (c : AcIn m) (w g : ℝ) (i j : Fin m) :
    Y (raiseAc k c) w (k⁻¹ * g) i j =
      ((if i.val < c.nn then k⁻¹ else 1 : ℝ) : ℂ) * ((if j.val < c.nn then 1 else k : ℝ) : ℂ) * Y c w g i j := by
  simp only [Y, of_apply, raiseAc]
  by_cases h : i = j
  · subst h
    by_cases hn : i.val < c.nn
    · simp [hn]; ring
    · simp [hn]; ring
  · simp only [h, if_false, false_and, Complex.ofReal_mul, Complex.ofReal_add]
    ring

theorem solves_raise {k : ℝ} (hk : k ≠ 0) (c : AcIn m) (w : ℝ) :
    (Stuck (raiseAc k c) w ↔ Stuck c w) ∧
    ∀ z, Solves c w z → Solves (raiseAc k c) w (fun i => if i.val < c.nn then z i else z i / k) := by
  have hkc : (k : ℂ) ≠ 0 := by exact_mod_cast hk
  have hp : ∀ i : Fin m, (((if i.val < c.nn then k⁻¹ else 1 : ℝ) : ℂ)) ≠ 0 := by
    intro i; split
    · simpa using hk
    · simp
  have hq : ∀ i : Fin m, (((if i.val < c.nn then 1 else k : ℝ) : ℂ)) ≠ 0 := by
    intro i; split
    · simp
    · exact hkc
  have S := fun g => solve_scaled hp hq (Y c w g) (Y (raiseAc k c) w (k⁻¹ * g)) (Y_raise c w g)
  have hg : (raiseAc k c).gmin = k⁻¹ * c.gmin := rfl
  have hN : (raiseAc k c).Nac = fun i => ((if i.val < c.nn then k⁻¹ else 1 : ℝ) : ℂ) * c.Nac i := rfl
  have S0 := S 0
  rw [mul_zero] at S0
  have Sg := S c.gmin
  have d0 : (Y (raiseAc k c) w 0).det = 0 ↔ (Y c w 0).det = 0 := not_iff_not.1 S0.1
  have dg : (Y (raiseAc k c) w (k⁻¹ * c.gmin)).det = 0 ↔ (Y c w c.gmin).det = 0 := not_iff_not.1 Sg.1
  have hz' : ∀ z : Fin m → ℂ, (fun i : Fin m => if i.val < c.nn then z i else z i / k) =
      fun i => (((if i.val < c.nn then 1 else k : ℝ) : ℂ))⁻¹ * z i := by
    intro z
    funext i
    split
    · simp
    · rw [div_eq_inv_mul]
  constructor
  · unfold Stuck
    rw [hg, d0, dg]
  · intro z hz
    unfold Solves at hz ⊢
    rw [hg, hN, hz']
    rcases hz with ⟨h1, h2⟩ | ⟨h1, h2, h3⟩
    · exact .inl ⟨Sg.1.2 h1, (Sg.2 _ _).2 h2⟩
    · exact .inr ⟨dg.2 h1, S0.1.2 h2, (S0.2 _ _).2 h3⟩

/-- C169: AC analysis of the circuit with raised impedances finds the same voltages and divided currents at all
frequencies, or fails with the same exception, or returns `None` as well. Missing: Gmin has to be divided too, it is an
option and not a part of the circuit. -/
theorem C169_ac_partial {o : AOpts} (ho : Default o) {k : ℝ} (hk : k ≠ 0) (c : AcIn m) (t : SweepType) (start stop : ℝ)
    (points : Nat) (x0 y0 : Fin m → ℂ) :
    (∃ e, acAnalysis o c t start stop points x0 = .error e ∧ acAnalysis o (raiseAc k c) t start stop points y0 = .error e) ∨
    (acAnalysis o c t start stop points x0 = .ok none ∧ acAnalysis o (raiseAc k c) t start stop points y0 = .ok none) ∨
    ∃ p : List (ℝ × (Fin m → ℂ)), acAnalysis o c t start stop points x0 = .ok (some p) ∧
      acAnalysis o (raiseAc k c) t start stop points y0 =
        .ok (some (p.map fun q => (q.1, fun i => if i.val < c.nn then q.2 i else q.2 i / k))) := by
  cases hw : omegas t start stop points (points + 2) with
  | error e => exact .inl ⟨e, by simp [acAnalysis, hw], by simp [acAnalysis, hw]⟩
  | ok ws =>
    right
    have st := fun w => (solves_raise hk c w).1
    rcases sweep_spec ho c ws x0 [] with ⟨⟨w, hw1, hw2⟩, e1⟩ | ⟨k1, p1, e1, f1⟩
    · rcases sweep_spec ho (raiseAc k c) ws y0 [] with ⟨-, e2⟩ | ⟨k2, -⟩
      · exact .inl ⟨by simp [acAnalysis, hw, e1], by simp [acAnalysis, hw, e2]⟩
      · exact absurd ((st w).2 hw2) (k2 w hw1)
    · rcases sweep_spec ho (raiseAc k c) ws y0 [] with ⟨⟨w, hw1, hw2⟩, -⟩ | ⟨-, p2, e2, f2⟩
      · exact absurd ((st w).1 hw2) (k1 w hw1)
      · refine .inr ⟨p1, by simp [acAnalysis, hw, e1], ?_⟩
        have : p2 = p1.map fun q => (q.1, fun i => if i.val < c.nn then q.2 i else q.2 i / (k : ℂ)) := by
          have l1 := f1.length_eq
          have l2 := f2.length_eq
          apply List.ext_getElem (by simp; omega)
          intro i hi hi'
          have hi1 : i < p1.length := by omega
          have hiw : i < ws.length := by omega
          have s1 := f1.get hiw hi1
          have s2 := f2.get hiw hi
          simp only [List.get_eq_getElem] at s1 s2
          rw [List.getElem_map]
          ext1
          · show p2[i].1 = p1[i].1
            rw [s1.1, s2.1]
          · exact solves_unique ((solves_raise hk c _).2 _ s1.2) s2.2
        simp [acAnalysis, hw, e2, this]

/-- C169 is false if Gmin stays the same: a current source and a resistor, whose impedance is multiplied by `k` and whose
current is divided by it, get another voltage. -/
theorem C169_gmin_refuted (k g : ℝ) (hk : 0 < k) (hk1 : k ≠ 1) (hg : 0 < g) (w : ℝ) :
    ∃ c : AcIn 1, c.gmin = g ∧ ∀ z z', Solves c w z → Solves { raiseAc k c with gmin := g } w z' → z' 0 ≠ z 0 := by
  refine ⟨⟨fun _ _ => 1, 0, 0, fun _ => -1, 1, g⟩, rfl, ?_⟩
  intro z z' h1 h2
  have a1 : (z 0) * (1 + g) = 1 := by
    rcases h1 with ⟨-, h⟩ | ⟨h, -⟩
    · have := congrFun h 0
      simp [Y, Matrix.mulVec, dotProduct] at this
      linear_combination this
    · simp [Y] at h
      have : (1 + g : ℝ) = 0 := by exact_mod_cast h
      linarith
  have a2 : (z' 0) * (1 / k + g) = 1 / k := by
    rcases h2 with ⟨-, h⟩ | ⟨h, -⟩
    · have := congrFun h 0
      simp [Y, Matrix.mulVec, dotProduct, raiseAc] at this
      simp only [one_div]
      linear_combination this
    · simp [Y, raiseAc] at h
      have : (k⁻¹ + g : ℝ) = 0 := by exact_mod_cast h
      have := inv_pos.2 hk
      linarith
  intro he
  rw [he] at a2
  have hkc : (k : ℂ) ≠ 0 := by exact_mod_cast hk.ne'
  have b2 : z 0 * (1 + k * g) = 1 := by
    field_simp at a2
    linear_combination a2
  have hz : z 0 ≠ 0 := by
    intro h0
    rw [h0] at a1
    simp at a1
  have : (k - 1 : ℂ) * g = 0 := by
    have : z 0 * ((k - 1 : ℂ) * g) = 0 := by linear_combination b2 - a1
    exact (mul_eq_zero.1 this).resolve_left hz
  rcases mul_eq_zero.1 this with h | h
  · exact hk1 (by have : (k : ℂ) = 1 := by linear_combination h
                  exact_mod_cast this)
  · exact hg.ne' (by exact_mod_cast h)

end

/-! ### Examples -/

/-- a circuit with all kinds of elements that change -/
def demo : List (Elem ℚ) :=
  [.V "V1" 1 0 { dc := some 1 }, .R "R1" 1 2 2, .L "L1" 2 3 1 none [], .R "R2" 3 0 4, .G "G1" 3 0 1 2 (1 / 2),
   .I "I1" 0 2 { dc := some 3 }, .C "C1" 2 0 1 none, .H "H1" 4 0 "V1" 5, .R "R3" 4 3 1]

/-- hypotheses of `C169_static` and `C169_dynamic_partial`, and the matrices really change -/
example : (∀ e ∈ demo, NodesLt 5 e) ∧ (generate demo 5).isOk = true ∧ (generate (demo.map (raise 10)) 5).isOk = true ∧
    (Bound.sysOf demo 5).M 1 1 = 1 / 2 ∧ (Bound.sysOf (demo.map (raise 10)) 5).M 1 1 = 1 / 20 ∧
    (Bound.sysOf demo 5).N 2 = -3 ∧ (Bound.sysOf (demo.map (raise 10)) 5).N 2 = -3 / 10 := by
  refine ⟨by simp [demo, NodesLt], ?_⟩
  decide +kernel

/-- a voltage divider -/
def divider : List (Elem ℚ) := [.V "V1" 1 0 { dc := some 6 }, .R "R1" 1 2 2, .R "R2" 2 0 4]

/-- hypotheses of `C169_op_partial` -/
example : (∀ e ∈ divider, NodesLt 3 e) ∧ generate divider 3 = .ok (Bound.sysOf divider 3) ∧
    generate (divider.map (raise 10)) 3 = .ok (Bound.sysOf (divider.map (raise 10)) 3) ∧
    (Rlc.reduce 3 (Bound.sysOf divider 3).M).det ≠ 0 ∧
    (Rlc.reduce 3 (Bound.sysOf divider 3).M + Op.gminMat (3 - 1) (1 / 1000)).det ≠ 0 ∧
    (Rlc.reduce 3 (Bound.sysOf (divider.map (raise 10)) 3).M + Op.gminMat (3 - 1) (1 / 1000)).det ≠ 0 := by
  refine ⟨by simp [divider, NodesLt], rfl, rfl, ?_⟩
  simp only [Matrix.det_fin_three]
  decide +kernel

end Verif.Imp
