import Verif.Props.MnaOrder
import Verif.Props.Bound
import Verif.Props.Sweep

/-!
Property C158: a DC sweep of a linear circuit.
-/

namespace Verif.DcLinear

open Verif.Mna Verif.Rlc Verif.Bound Verif.Circuit
open Verif.Op (OOpts OpSol opAnalysis gminMat)

variable {K : Type} [Field K] [LinearOrder K] [IsStrictOrderedRing K]

/-- what the matrix of a circuit does, and that the values of the sources have no part in it -/
theorem matrix_row {nv : Nat} {circ : List (Elem K)} {d : String → K} {s : Sys K}
    (he : ∀ e ∈ circ, NodesLt nv e) (hp : ∀ e ∈ circ, Proper e)
    (h : generate (withDc d circ) nv = .ok s) (x : Vec K) (r : Nat) :
    mulVec s.size s.M x r = eqn circ nv x (fun _ => 0) r ∧ s.N r = eqn circ nv (fun _ => 0) d r := by
  have row := fun x => (generate_row x (withDc_nodes d he) (withDc_proper d hp) h).2 r
  have h0 : mulVec s.size s.M (fun _ => 0) r = 0 := by simp [mulVec]
  have r0 : s.N r = eqn circ nv (fun _ => 0) d r := by
    have := row (fun _ => 0)
    rw [h0, zero_add] at this
    exact this
  have rx : mulVec s.size s.M x r + s.N r = eqn circ nv x d r := row x
  have lin := eqn_linear circ nv x (fun _ => 0) (fun _ => 0) d 1 1 r
  simp only [one_mul, mul_zero, add_zero, zero_add] at lin
  refine ⟨?_, r0⟩
  rw [lin, ← r0] at rx
  exact add_right_cancel rx

/-- the parts of the equations that stay and that follow a source -/
theorem parts_of {nv m : Nat} {circ : List (Elem K)} {d : String → K} {name : String} {sys : K → Sys K}
    (he : ∀ e ∈ circ, NodesLt nv e) (hp : ∀ e ∈ circ, Proper e)
    (h : ∀ v, generate (withDc (Function.update d name v) circ) nv = .ok (sys v)) (hm : (sys 0).size = m + 1) (v : K) :
    (sys v).size = m + 1 ∧ Rlc.reduce m (sys v).M = Rlc.reduce m (sys 0).M ∧
      ∀ i, reduceV m (sys v).N i = reduceV m (sys 0).N i + v * (reduceV m (sys 1).N i - reduceV m (sys 0).N i) := by
  have size : (sys v).size = m + 1 := by
    rw [← hm, (generate_row (fun _ => 0) (withDc_nodes _ he) (withDc_proper _ hp) (h v)).1,
      (generate_row (fun _ => 0) (withDc_nodes _ he) (withDc_proper _ hp) (h 0)).1, withDc_vdes_length, withDc_vdes_length]
  refine ⟨size, ?_, ?_⟩
  · have key : ∀ x : Fin m → K, (Rlc.reduce m (sys v).M).mulVec x = (Rlc.reduce m (sys 0).M).mulVec x := by
      intro x
      funext i
      have a := (matrix_row he hp (h v) (Rlc.ext x) (i.val + 1)).1
      have b := (matrix_row he hp (h 0) (Rlc.ext x) (i.val + 1)).1
      rw [size] at a
      rw [hm] at b
      rw [reduce_row, reduce_row, a, b]
    exact Matrix.ext_of_mulVec_single fun j => key _
  · intro i
    simp only [reduceV]
    rw [(matrix_row he hp (h v) (fun _ => 0) _).2, (matrix_row he hp (h 0) (fun _ => 0) _).2,
      (matrix_row he hp (h 1) (fun _ => 0) _).2]
    have lin := eqn_linear circ nv (fun _ => 0) (fun _ => 0) (Function.update d name 0) (Function.update d name 1)
      (1 - v) v (i.val + 1)
    have e : (fun k => (1 - v) * Function.update d name 0 k + v * Function.update d name 1 k) = Function.update d name v := by
      funext k
      by_cases hk : k = name
      · subst hk; simp
      · simp [hk]; ring
    simp only [mul_zero, add_zero, e] at lin
    rw [lin]
    ring

/-- C158: the operating point of a linear circuit that has one solution is an affine function of the
value of a source: the gain `b` from the source is the same at all values. `a` is the operating point
with the source off, and `b` that with all other sources off and this one at 1 (`C158_gain`). -/
theorem C158_affine {nv m : Nat} {circ : List (Elem K)} {d : String → K} {name : String} {sys : K → Sys K}
    {o : OOpts K} {gmin : K}
    (he : ∀ e ∈ circ, NodesLt nv e) (hp : ∀ e ∈ circ, Proper e)
    (h : ∀ v, generate (withDc (Function.update d name v) circ) nv = .ok (sys v)) (hm : (sys 0).size = m + 1)
    (ho : Op.Plain o) (hs : o.meth.std = true)
    (hd0 : (Rlc.reduce m (sys 0).M).det ≠ 0) (hd1 : (Rlc.reduce m (sys 0).M + gminMat (nv - 1) gmin).det ≠ 0) :
    ∃ a b : Fin m → K, ∀ v x0,
      opAnalysis o (opCirc m nv (sys v)) gmin x0 = some (some ⟨fun i => a i + v * b i, 0⟩) := by
  have one : ∀ v x0, ∃ x, opAnalysis o (opCirc m nv (sys v)) gmin x0 = some (some ⟨x, 0⟩) ∧
      (Rlc.reduce m (sys 0).M).mulVec x + reduceV m (sys v).N = 0 := by
    intro v x0
    obtain ⟨-, hM, -⟩ := parts_of he hp h hm v
    obtain ⟨x, h1, h2⟩ := Op.C119_linear ho hs (c := opCirc m nv (sys v)) ⟨rfl, rfl⟩ gmin
      (by simp only [opCirc]; rw [hM]; exact hd0) (by simp only [opCirc]; rw [hM]; exact hd1) x0
    simp only [opCirc, add_zero] at h2
    rw [hM] at h2
    exact ⟨x, h1, h2⟩
  obtain ⟨x, -, hx⟩ := one 0 none
  obtain ⟨y, -, hy⟩ := one 1 none
  refine ⟨x, fun i => y i - x i, fun v x0 => ?_⟩
  obtain ⟨z, e, hz⟩ := one v x0
  rw [e]
  have : z = fun i => x i + v * (y i - x i) := by
    refine Newton.C15_unique _ (reduceV m (sys v).N) _ _ hd0 hz ?_
    have ez : (fun i => x i + v * (y i - x i)) = x + v • (y - x) := by funext i; simp
    rw [ez, Matrix.mulVec_add, Matrix.mulVec_smul, Matrix.mulVec_sub]
    funext i
    have hxi := congrFun hx i
    have hyi := congrFun hy i
    have hN := (parts_of he hp h hm v).2.2 i
    simp only [Pi.add_apply, Pi.smul_apply, Pi.sub_apply, smul_eq_mul, Pi.zero_apply] at hxi hyi ⊢
    rw [hN]
    linear_combination (1 - v) * hxi + v * hyi
  rw [this]

/-- C158: what the gain is. -/
theorem C158_gain {nv m : Nat} {circ : List (Elem K)} {d : String → K} {name : String} {sys : K → Sys K} {one : Sys K}
    {o : OOpts K} {gmin : K}
    (he : ∀ e ∈ circ, NodesLt nv e) (hp : ∀ e ∈ circ, Proper e)
    (h : ∀ v, generate (withDc (Function.update d name v) circ) nv = .ok (sys v)) (hm : (sys 0).size = m + 1)
    (h1 : generate (withDc (Function.update (fun _ => 0) name 1) circ) nv = .ok one)
    (ho : Op.Plain o) (hs : o.meth.std = true)
    (hd0 : (Rlc.reduce m (sys 0).M).det ≠ 0) (hd1 : (Rlc.reduce m (sys 0).M + gminMat (nv - 1) gmin).det ≠ 0)
    {v w : K} {x0 y0 z0 : Option (Fin m → K)} {x y z : OpSol K m}
    (hx : opAnalysis o (opCirc m nv (sys v)) gmin x0 = some (some x))
    (hy : opAnalysis o (opCirc m nv (sys w)) gmin y0 = some (some y))
    (hz : opAnalysis o (opCirc m nv one) gmin z0 = some (some z)) (i : Fin m) :
    x.x i - y.x i = (v - w) * z.x i := by
  obtain ⟨a, b, hab⟩ := C158_affine he hp h hm ho hs hd0 hd1
  have size : one.size = m + 1 := by
    rw [← hm, (generate_row (fun _ => 0) (withDc_nodes _ he) (withDc_proper _ hp) h1).1,
      (generate_row (fun _ => 0) (withDc_nodes _ he) (withDc_proper _ hp) (h 0)).1, withDc_vdes_length, withDc_vdes_length]
  have hM : Rlc.reduce m one.M = Rlc.reduce m (sys 0).M := by
    refine Matrix.ext_of_mulVec_single fun j => ?_
    funext i
    have a := (matrix_row he hp h1 (Rlc.ext (Pi.single j 1)) (i.val + 1)).1
    have b := (matrix_row he hp (h 0) (Rlc.ext (Pi.single j 1)) (i.val + 1)).1
    rw [size] at a
    rw [hm] at b
    rw [reduce_row, reduce_row, a, b]
  have hN : ∀ i, reduceV m one.N i = reduceV m (sys 1).N i - reduceV m (sys 0).N i := by
    intro i
    simp only [reduceV]
    rw [(matrix_row he hp h1 (fun _ => 0) _).2, (matrix_row he hp (h 0) (fun _ => 0) _).2,
      (matrix_row he hp (h 1) (fun _ => 0) _).2]
    have lin := eqn_linear circ nv (fun _ => 0) (fun _ => 0) (Function.update d name 1) (Function.update d name 0)
      1 (-1) (i.val + 1)
    have e : (fun k => 1 * Function.update d name 1 k + -1 * Function.update d name 0 k) =
        Function.update (fun _ => 0) name 1 := by
      funext k
      by_cases hk : k = name
      · subst hk; simp
      · simp [hk]
    simp only [mul_zero, add_zero, e] at lin
    rw [lin]
    ring
  obtain ⟨u, e1, e2⟩ := Op.C119_linear ho hs (c := opCirc m nv one) ⟨rfl, rfl⟩ gmin
      (by simp only [opCirc]; rw [hM]; exact hd0) (by simp only [opCirc]; rw [hM]; exact hd1) z0
  obtain ⟨p, p1, p2⟩ := Op.C119_linear ho hs (c := opCirc m nv (sys 0)) ⟨rfl, rfl⟩ gmin hd0 hd1 none
  obtain ⟨q, q1, q2⟩ := Op.C119_linear ho hs (c := opCirc m nv (sys 1)) ⟨rfl, rfl⟩ gmin
      (by simp only [opCirc]; rw [(parts_of he hp h hm 1).2.1]; exact hd0)
      (by simp only [opCirc]; rw [(parts_of he hp h hm 1).2.1]; exact hd1) none
  simp only [opCirc, add_zero] at e2 p2 q2
  rw [hM] at e2
  rw [(parts_of he hp h hm 1).2.1] at q2
  rw [hab] at p1 q1 hx hy
  rw [e1] at hz
  simp only [Option.some.injEq] at hx hy hz p1 q1
  have hu : u = fun i => q i - p i := by
    refine Newton.C15_unique _ (reduceV m one.N) _ _ hd0 e2 ?_
    have ez : (fun i => q i - p i) = q - p := rfl
    rw [ez, Matrix.mulVec_sub]
    funext i
    have hpi := congrFun p2 i
    have hqi := congrFun q2 i
    simp only [Pi.add_apply, Pi.sub_apply, Pi.zero_apply] at hpi hqi ⊢
    rw [hN]
    linear_combination hqi - hpi
  have p1' := congrFun (congrArg OpSol.x p1) i
  have q1' := congrFun (congrArg OpSol.x q1) i
  simp only at p1' q1'
  rw [← hx, ← hy, ← hz, hu]
  simp only
  rw [← p1', ← q1']
  ring

open Verif.Sweep

/-- The operating point of a sweep, dc_analysis.py:571: `x` is the previous solution. -/
noncomputable def opAt {m : Nat} (o : OOpts K) (nv : Nat) (gmin : K) (sys : K → Sys K) :
    Nat → K → Option (OpSol K m) → Outcome (OpSol K m) := fun _ v x =>
  match opAnalysis o (opCirc m nv (sys v)) gmin (x.map OpSol.x) with
  | none => .raises
  | some none => .fails
  | some (some r) => .solved r

omit [Field K] [LinearOrder K] [IsStrictOrderedRing K] in
theorem loop_solved {S : Type} {skip : Bool} {op : Nat → K → Option S → Outcome S} {f : K → S}
    (h : ∀ k v x, op k v x = .solved (f v)) (k : Nat) (vs : List K) (s : State K S) :
    (loop skip op k vs s).2 = false ∧ (loop skip op k vs s).1.recd = s.recd ++ vs.map (fun v => (v, f v)) ∧
      (loop skip op k vs s).1.solved = if vs = [] then s.solved else some true := by
  induction vs generalizing k s with
  | nil => simp [Sweep.loop]
  | cons v vs ih =>
    unfold Sweep.loop
    simp only [h]
    obtain ⟨h1, h2, h3⟩ := ih (k + 1)
      { s with dc := v, x := some (f v), solved := some true, recd := s.recd ++ [(v, f v)], tried := s.tried ++ [v] }
    refine ⟨h1, by rw [h2]; simp, ?_⟩
    rw [h3]
    split <;> simp

variable [FloorRing K]

/-- the sweep of a circuit whose operating points are on a straight line -/
theorem sweep_line {nv m : Nat} {sys : K → Sys K} {o : OOpts K} {gmin : K} {a b : Fin m → K}
    (hab : ∀ v x0, opAnalysis o (opCirc m nv (sys v)) gmin x0 = some (some ⟨fun i => a i + v * b i, 0⟩))
    (skip : Bool) (start step dc0 : K) (n : Nat) (hst : step ≠ 0) (x0 : Option (OpSol K m)) :
    (dcAnalysis skip (opAt o nv gmin sys) start (start + n * step) step dc0 x0).out =
      .ok (some ((List.range (n + 1)).map fun k : Nat =>
        (start + k * step, ⟨fun i => a i + (start + k * step) * b i, 0⟩))) := by
  have hop : ∀ k v x, opAt (m := m) o nv gmin sys k v x = .solved ⟨fun i => a i + v * b i, 0⟩ := by
    intro k v x
    simp only [opAt, hab]
  have ht := C18_exact_multiple_partial skip (opAt (m := m) o nv gmin sys) (fun k v x => by rw [hop]; simp)
    (Or.inr fun k v x => by rw [hop]; simp) start step dc0 n hst x0
  unfold dcAnalysis at ht ⊢
  have h1 : ¬ (start + n * step - start) * step < 0 := fun hc => by
    rw [if_pos hc] at ht; simp [grid] at ht
  rw [if_neg h1, if_neg hst] at ht ⊢
  simp only at ht ⊢
  cases ha : Axes.linInit start (start + n * step) ((start + n * step - start) / step + 1) with
  | none => rw [ha] at ht; simp [grid] at ht
  | some ax =>
    rw [ha] at ht
    simp only at ht ⊢
    generalize hv : Axes.collect Axes.linNext (⌈(start + n * step - start) / step + 1⌉₊ + 2) ax = vs at ht ⊢
    obtain ⟨l1, l2, l3⟩ := loop_solved (skip := skip) hop 0 vs ⟨dc0, x0, none, [], []⟩
    have l4 := (loop_all skip (opAt (m := m) o nv gmin sys) (fun k v x => by rw [hop]; simp)
      (Or.inr fun k v x => by rw [hop]; simp) 0 vs ⟨dc0, x0, none, [], []⟩).1
    rcases hl : loop skip (opAt (m := m) o nv gmin sys) 0 vs ⟨dc0, x0, none, [], []⟩ with ⟨s, raised⟩
    rw [hl] at l1 l2 l3 l4 ht
    simp only at l1 l2 l3 l4 ht ⊢
    subst l1
    simp only [Bool.false_eq_true, if_false] at ht ⊢
    have hvs : vs = grid start step (n + 1) := by
      have : s.tried = grid start step (n + 1) := by
        cases e : s.solved with
        | none => rw [e] at ht; exact ht
        | some b => rw [e] at ht; exact ht
      rw [← this, l4]
      simp
    have hne : vs ≠ [] := by rw [hvs]; simp [grid]
    rw [if_neg hne] at l3
    rw [l3]
    simp only [if_true]
    rw [l2, hvs]
    simp [grid, Function.comp_def]

/-- C158: a linear sweep of such a circuit returns a point for each of `start`, `start+step`, ..., `stop`, and the
points are on a straight line. -/
theorem C158_sweep {nv m : Nat} {circ : List (Elem K)} {d : String → K} {name : String} {sys : K → Sys K}
    {o : OOpts K} {gmin : K}
    (he : ∀ e ∈ circ, NodesLt nv e) (hp : ∀ e ∈ circ, Proper e)
    (h : ∀ v, generate (withDc (Function.update d name v) circ) nv = .ok (sys v)) (hm : (sys 0).size = m + 1)
    (ho : Op.Plain o) (hs : o.meth.std = true)
    (hd0 : (Rlc.reduce m (sys 0).M).det ≠ 0) (hd1 : (Rlc.reduce m (sys 0).M + gminMat (nv - 1) gmin).det ≠ 0)
    (skip : Bool) (start step dc0 : K) (n : Nat) (hst : step ≠ 0) (x0 : Option (OpSol K m)) :
    ∃ a b : Fin m → K,
      (dcAnalysis skip (opAt o nv gmin sys) start (start + n * step) step dc0 x0).out =
        .ok (some ((List.range (n + 1)).map fun k : Nat =>
          (start + k * step, ⟨fun i => a i + (start + k * step) * b i, 0⟩))) := by
  obtain ⟨a, b, hab⟩ := C158_affine he hp h hm ho hs hd0 hd1
  exact ⟨a, b, sweep_line hab skip start step dc0 n hst x0⟩

/-! ### Examples -/

/-- a divider that is driven by a voltage source and a current source -/
def demo : List (Elem ℚ) :=
  [.V "V1" 1 0 { dc := some 0 }, .R "R1" 1 2 2, .I "I1" 2 0 { dc := some 0 }, .R "R2" 2 0 3]

/-- its equations; the current source is at 5 -/
def demoSys (v : ℚ) : Sys ℚ := sysOf (withDc (Function.update (fun _ => 5) "V1" v) demo) 3

example (n : Nat) : ∃ a b : Fin 3 → ℚ,
    (dcAnalysis true (opAt Op.dflt 3 (1 / 10 ^ 12) demoSys) 0 (0 + n * 2) 2 7 none).out =
      .ok (some ((List.range (n + 1)).map fun k : Nat => (0 + k * 2, ⟨fun i => a i + (0 + k * 2) * b i, 0⟩))) := by
  refine C158_sweep (circ := demo) (d := fun _ => 5) (name := "V1") (nv := 3) (o := Op.dflt) ?_ ?_ ?_ ?_ ⟨rfl, by decide⟩ rfl ?_ ?_
    true 0 2 7 n (by norm_num) none
  · simp [demo, NodesLt]
  · simp [demo, Proper]
  · intro v; rfl
  · rfl
  · decide +kernel
  · decide +kernel

end Verif.DcLinear
