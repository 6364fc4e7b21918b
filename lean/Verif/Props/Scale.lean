import Verif.Props.Super
import Verif.Props.AcLinear
import Verif.Props.Dyn

/-!
Property C168: scaling of time. A circuit whose capacitances, inductances and mutual inductances are multiplied by `a`
does the same as before, `a` times slower.
-/

namespace Verif.Scale
open Verif.Circuit Verif.Mna Verif.Dyn

/-! ### The matrices -/

section
variable {α : Type} [Field α]

/-- the element, slower by the factor `a` -/
def slow (a : α) : Elem α → Elem α
  | .L id n1 n2 v ic coup => .L id n1 n2 (a * v) ic (coup.map fun c => { c with M := a * c.M })
  | .C id n1 n2 v ic => .C id n1 n2 (a * v) ic
  | .K c => .K { c with M := a * c.M }
  | e => e

theorem slow_vde (a : α) (e : Elem α) : (slow a e).vde = e.vde := by cases e <;> rfl

theorem slow_id (a : α) (e : Elem α) : (slow a e).id = e.id := by cases e <;> rfl

theorem find_slow (a : α) (circ : List (Elem α)) (p : String) :
    findVdeIndex (circ.map (slow a)) p = findVdeIndex circ p := by
  unfold findVdeIndex
  generalize 0 = k
  induction circ generalizing k with
  | nil => rfl
  | cons e r ih => simp only [List.map_cons, findVdeIndexAux, slow_vde, slow_id, ih]

theorem loop_map {σ ε ι : Type} (f g : σ → ι → Except ε σ) (h : ι → ι) (H : ∀ s e, f s (h e) = g s e) (s : σ)
    (l : List ι) : loop f s (l.map h) = loop g s l := by
  induction l generalizing s with
  | nil => rfl
  | cons e l ih =>
    simp only [List.map_cons, loop, H]
    cases g s e with
    | ok s' => exact ih s'
    | error x => rfl

/-- C168: the equations for constant voltages and currents do not depend on the speed of the circuit. -/
theorem C168_static (a : α) (circ : List (Elem α)) (nv : Nat) :
    generate (circ.map (slow a)) nv = generate circ nv := by
  have h1 : ∀ (s : Sys α) e, stamp1 s (slow a e) = stamp1 s e := by intro s e; cases e <;> rfl
  have h2 : ∀ (s : Sys α) e, stamp2 (circ.map (slow a)) nv s (slow a e) = stamp2 circ nv s e := by
    intro s e
    cases e <;> simp only [slow, stamp2, find_slow]
  have h3 : ∀ (s : Sys α) e, stamp3 (circ.map (slow a)) nv s (slow a e) = stamp3 circ nv s e := by
    intro s e
    cases e <;> simp only [slow, stamp3, find_slow]
  unfold generate
  rw [loop_map _ _ _ h1]
  cases loop stamp1 _ circ with
  | error x => rfl
  | ok s1 =>
    simp only
    rw [loop_map _ _ _ h2]
    cases loop (stamp2 circ nv) s1 circ with
    | error x => rfl
    | ok s2 => exact loop_map _ _ _ h3 _ _

/-- a loop over states that correspond to each other -/
theorem loop_rel {σ ε ι : Type} (f g : σ → ι → Except ε σ) (h : ι → ι) (p : σ → σ)
    (H : ∀ s e, f (p s) (h e) = (g s e).map p) (s : σ) (l : List ι) :
    loop f (p s) (l.map h) = (loop g s l).map p := by
  induction l generalizing s with
  | nil => rfl
  | cons e l ih =>
    simp only [List.map_cons, loop, H]
    cases g s e with
    | ok s' => exact ih s'
    | error x => rfl

def times (a : α) (D : Mat α) : Mat α := fun i j => a * D i j

theorem times_add (a : α) (D : Mat α) (i j : Nat) (v : α) :
    (times a D).add i j (a * v) = times a (D.add i j v) := by
  funext r c
  simp only [times, Mat.add, Mat.put]
  split <;> ring

theorem times_put (a : α) (D : Mat α) (i j : Nat) (v : α) :
    (times a D).put i j (a * v) = times a (D.put i j v) := by
  funext r c
  simp only [times, Mat.put]
  split <;> ring

theorem step_slow (a : α) (circ : List (Elem α)) (nv : Nat) (s : DState α) (e : Elem α) :
    dStep (circ.map (slow a)) nv ⟨times a s.D, s.iEq⟩ (slow a e) =
      (dStep circ nv s e).map fun s => ⟨times a s.D, s.iEq⟩ := by
  cases e with
  | L id n1 n2 v ic coup =>
    simp only [slow, dStep]
    have e1 : -1 * (a * v) = a * (-1 * v) := by ring
    rw [e1, times_put, loop_rel (couplings (circ.map (slow a)) nv (nv + s.iEq) id)
      (couplings circ nv (nv + s.iEq) id) _ (times a)]
    · cases loop (couplings circ nv (nv + s.iEq) id) (s.D.put (nv + s.iEq) (nv + s.iEq) (-1 * v)) coup <;> rfl
    · intro D c
      simp only [couplings, find_slow]
      have : Coupling.other { c with M := a * c.M } id = c.other id := rfl
      rw [this]
      cases c.other id with
      | error x => rfl
      | ok o =>
        simp only
        cases findVdeIndex circ o with
        | error x => rfl
        | ok k =>
          simp only [Except.map]
          rw [← times_add]
          congr 2
          ring
  | C id n1 n2 v ic =>
    simp only [slow, dStep, Except.map]
    have e1 : -(a * v) = a * (-v) := by ring
    rw [e1, times_add, times_add, times_add, times_add]
  | _ => simp [slow, dStep, Except.map, Elem.vde]

/-- C168: the matrix of the dynamic elements is multiplied by the factor, if the capacitance to ground that is added at
all nodes is multiplied as well. -/
theorem C168_transient_matrix_partial (a : α) (circ : List (Elem α)) (nv S : Nat) (cmin : α) :
    generateD (circ.map (slow a)) nv S (a * cmin) =
      (generateD circ nv S cmin).map fun D => fun i j => a * D i j := by
  have h := loop_rel (dStep (circ.map (slow a)) nv) (dStep circ nv) (slow a)
    (fun s : DState α => (⟨times a s.D, s.iEq⟩ : DState α)) (step_slow a circ nv) ⟨fun _ _ => 0, 0⟩ circ
  have h0 : (⟨times a fun _ _ => 0, 0⟩ : DState α) = ⟨fun _ _ => 0, 0⟩ := by
    congr 1
    funext i j
    simp [times]
  simp only [h0] at h
  unfold generateD
  rw [h]
  cases loop (dStep circ nv) ⟨fun _ _ => 0, 0⟩ circ with
  | error x => rfl
  | ok s =>
    simp only [Except.map, times]
    congr 1
    funext i j
    ring

end

/-! ### Transient analysis -/

section
open Verif.Tran Verif.Super Matrix
variable {K : Type} [Field K] {m : Nat} {a : K}

/-- an entry of a history, slower by `a` -/
def stretch (a : K) (e : Entry K m) : Entry K m := ⟨a * e.t, e.x, e.dx.map fun d => a⁻¹ • d⟩

def stretchF (a : K) (f : Formula K m) : Formula K m := ⟨a⁻¹ * f.c1, a⁻¹ • f.c0, f.pred⟩

theorem xAt_slow (l : List (Entry K m)) : xAt (l.map (stretch a)) = xAt l := by
  funext k i
  simp only [xAt, List.getElem?_map]
  cases l[k]? <;> rfl

theorem dxAt_slow (l : List (Entry K m)) (k : Nat) (i : Fin m) : dxAt (l.map (stretch a)) k i = a⁻¹ * dxAt l k i := by
  simp only [dxAt, List.getElem?_map]
  cases l[k]? with
  | none => simp
  | some e => cases h : e.dx <;> simp [stretch, h]

theorem tAt_slow (l : List (Entry K m)) (k : Nat) : tAt (l.map (stretch a)) k = a * tAt l k := by
  simp only [tAt, List.getElem?_map]
  cases l[k]? <;> simp [stretch]

theorem euler_slow (ha : a ≠ 0) (l : List (Entry K m)) (step : K) (p : Bool) :
    eulerDf (l.map (stretch a)) (a * step) p = (eulerDf l step p).map (stretchF a) := by
  unfold eulerDf
  simp only [List.length_map, xAt_slow]
  by_cases h0 : l.length = 0
  · rw [if_pos h0, if_pos h0]; rfl
  rw [if_neg h0, if_neg h0]
  simp only [DF.implicitEuler, tAt_slow, Except.map, stretchF]
  congr 2
  · rw [one_div, mul_inv, one_div]
  · funext i
    simp only [Pi.smul_apply, smul_eq_mul, div_eq_mul_inv, mul_inv]
    ring
  · have : ∀ i, (xAt l 0 i - xAt l 1 i) / (a * tAt l 0 - a * tAt l 1) * (a * step) + xAt l 0 i =
        (xAt l 0 i - xAt l 1 i) / (tAt l 0 - tAt l 1) * step + xAt l 0 i := by
      intro i
      rw [← mul_sub, div_eq_mul_inv, mul_inv, div_eq_mul_inv]
      have := mul_inv_cancel₀ ha
      linear_combination (xAt l 0 i - xAt l 1 i) * (tAt l 0 - tAt l 1)⁻¹ * step * this
    simp only [this]

theorem trap_matrix (t : Nat → K) : DF.trapA (fun k => a * t k) = DF.trapA t * diagonal ![1, a, a ^ 2] := by
  funext row col
  rw [mul_diagonal]
  unfold DF.trapA
  fin_cases col <;> fin_cases row <;> simp <;> ring

theorem trap_alpha (ha : a ≠ 0) (t x : Nat → K) (h : K) :
    let al := (DF.trapA (fun k => a * t k))⁻¹.mulVec (fun i : Fin 3 => x i)
    let al0 := (DF.trapA t)⁻¹.mulVec (fun i : Fin 3 => x i)
    al 2 * (a * h) ^ 2 + al 1 * (a * h) + al 0 = al0 2 * h ^ 2 + al0 1 * h + al0 0 := by
  intro al al0
  have hinv : (diagonal ![1, a, a ^ 2] : Matrix (Fin 3) (Fin 3) K)⁻¹ = diagonal ![1, a⁻¹, (a ^ 2)⁻¹] := by
    apply Matrix.inv_eq_left_inv
    rw [diagonal_mul_diagonal, ← diagonal_one]
    congr 1
    funext i
    fin_cases i <;> simp [ha]
  have hal : ∀ i, al i = ![1, a⁻¹, (a ^ 2)⁻¹] i * al0 i := by
    intro i
    simp only [al, al0]
    rw [trap_matrix, Matrix.mul_inv_rev, hinv, ← Matrix.mulVec_mulVec, Matrix.mulVec_diagonal]
  rw [hal 0, hal 1, hal 2]
  simp only [Matrix.cons_val_zero, Matrix.cons_val_one, Matrix.cons_val]
  field_simp

theorem trap_slow (ha : a ≠ 0) (l : List (Entry K m)) (step : K) (p : Bool) :
    trapDf (l.map (stretch a)) (a * step) p = (trapDf l step p).map (stretchF a) := by
  cases l with
  | nil => rfl
  | cons e l =>
    have hx := xAt_slow (a := a) (e :: l)
    have hdx := dxAt_slow (a := a) (e :: l)
    have ht : tAt ((e :: l).map (stretch a)) = fun k => a * tAt (e :: l) k := funext (tAt_slow (e :: l))
    have hs : (stretch a e).dx.isNone = e.dx.isNone := by simp [stretch]
    unfold trapDf
    rw [List.map_cons] at *
    simp only [hs, List.length_cons, List.length_map]
    by_cases h1 : e.dx.isNone = true
    · rw [if_pos h1, if_pos h1]; rfl
    rw [if_neg h1, if_neg h1]
    by_cases h2 : (p && decide (l.length + 1 < 2)) = true
    · rw [if_pos h2, if_pos h2]; rfl
    rw [if_neg h2, if_neg h2]
    by_cases h3 : (p && decide (l.length + 1 < 3)) = true
    · rw [if_pos h3, if_pos h3]; rfl
    rw [if_neg h3, if_neg h3]
    simp only [DF.trap, Except.map, stretchF, ht, hx, hdx]
    congr 2
    · rw [div_eq_mul_inv, mul_inv, div_eq_mul_inv]; ring
    · funext i
      simp only [Pi.smul_apply, smul_eq_mul, div_eq_mul_inv, mul_inv]
      ring
    · cases p with
      | false => rfl
      | true =>
        simp only [if_true]
        congr 1
        funext i
        exact trap_alpha ha (tAt (e :: l)) (fun k => xAt (e :: l) k i) step

theorem gearS_slow (t : Nat → K) (h : K) : DF.gearS (fun k => a * t k) (a * h) = fun k => a * DF.gearS t h k := by
  funext k
  unfold DF.gearS
  split
  · simp
  · ring

theorem gearE_slow (ha : a ≠ 0) (s : Nat → K) : DF.gearE (fun k => a * s k) = DF.gearE s := by
  funext k i
  unfold DF.gearE
  split
  · rfl
  · rw [← mul_sub, mul_div_mul_left _ _ ha]

theorem gearAlpha_slow (ha : a ≠ 0) (n : Nat) (s : Nat → K) : DF.gearAlpha n (fun k => a * s k) = DF.gearAlpha n s := by
  funext k
  unfold DF.gearAlpha
  rw [gearE_slow ha]

theorem gearGamma_slow (ha : a ≠ 0) (n : Nat) (s : Nat → K) (k : Nat) :
    DF.gearGamma n (fun k => a * s k) k = a⁻¹ * DF.gearGamma n s k := by
  unfold DF.gearGamma
  rw [gearAlpha_slow ha]
  simp only [one_div, mul_inv]
  ring

theorem gearGamma0_slow (ha : a ≠ 0) (n : Nat) (s : Nat → K) :
    DF.gearGamma0 n (fun k => a * s k) = a⁻¹ * DF.gearGamma0 n s := by
  unfold DF.gearGamma0
  simp only [gearGamma_slow ha]
  have : ∀ (l : List Nat) (z : K), l.foldl (fun b j => b - a⁻¹ * DF.gearGamma n s (j + 1)) (a⁻¹ * z) =
      a⁻¹ * l.foldl (fun b j => b - DF.gearGamma n s (j + 1)) z := by
    intro l
    induction l with
    | nil => intro z; rfl
    | cons j l ih => intro z; simp only [List.foldl_cons]; rw [← mul_sub, ih]
  simpa using this (List.range n) 0

theorem gearC0_slow (ha : a ≠ 0) (n : Nat) (s x : Nat → K) :
    (List.range n).foldl (fun b i => b + DF.gearGamma n (fun k => a * s k) (i + 1) * x i) 0 =
      a⁻¹ * (List.range n).foldl (fun b i => b + DF.gearGamma n s (i + 1) * x i) 0 := by
  simp only [gearGamma_slow ha]
  have : ∀ (l : List Nat) (z : K), l.foldl (fun b j => b + a⁻¹ * DF.gearGamma n s (j + 1) * x j) (a⁻¹ * z) =
      a⁻¹ * l.foldl (fun b j => b + DF.gearGamma n s (j + 1) * x j) z := by
    intro l
    induction l with
    | nil => intro z; rfl
    | cons j l ih => intro z; simp only [List.foldl_cons]; rw [← ih]; congr 1; ring
  simpa using this (List.range n) 0

theorem gear_slow (ha : a ≠ 0) (n : Nat) (l : List (Entry K m)) (step : K) (p : Bool) :
    gearDf n (l.map (stretch a)) (a * step) p = (gearDf n l step p).map (stretchF a) := by
  have ht : tAt (l.map (stretch a)) = fun k => a * tAt l k := funext (tAt_slow l)
  unfold gearDf
  simp only [List.length_map, xAt_slow]
  by_cases hl : l.length < n + 1
  · rw [if_pos hl, if_pos hl]; rfl
  rw [if_neg hl, if_neg hl]
  simp only [DF.gear, Except.map, stretchF, ht, gearS_slow, gearGamma0_slow ha, gearAlpha_slow ha, gearC0_slow ha]
  rfl

theorem formula_slow (ha : a ≠ 0) (mt : Meth) (control : Bool) (iter : Nat) (l : List (Entry K m)) (step : K) :
    formula mt control iter (l.map (stretch a)) (a * step) = (formula mt control iter l step).map (stretchF a) := by
  unfold formula
  simp only
  split
  · cases l with
    | nil => rfl
    | cons e l => exact euler_slow ha [e] step _
  · cases mt with
    | euler => exact euler_slow ha l step _
    | trap => exact trap_slow ha l step _
    | gear n => exact gear_slow ha n l step _

variable [LinearOrder K]

/-- the circuit, slower by `a`, with sources that are slower by `a` -/
def slowNet (a : K) (n : Net K m) : Net K m := { n with D := a • n.D, Tt := fun t => n.Tt (a⁻¹ * t) }

/-- a state, slower by `a` -/
def slowSt (a : K) (s : St K m) : St K m :=
  { s with time := a * s.time, tstep := a * s.tstep, buf := s.buf.map (stretch a), points := s.points.map (stretch a) }

def slowStatus (a : K) : Status K m → Status K m
  | .running s => .running (slowSt a s)
  | .halted s => .halted (slowSt a s)
  | .raised s => .raised (slowSt a s)

def slowCtl (a : K) : Ctl K → Ctl K
  | .redo h => .redo (a * h)
  | .keep h => .keep (a * h)

theorem pass_slow (ha : a ≠ 0) (c : Cfg K) (n : Net K m) (x0 : Fin m → K) (s : St K m) (ctl : Ctl K) :
    pass c (slowNet a n) x0 (slowSt a s) (slowCtl a ctl) = slowStatus a (pass c n x0 s ctl) := by
  unfold pass
  simp only [slowSt, formula_slow ha]
  cases formula c.meth c.control s.iter s.buf s.tstep with
  | error e => rfl
  | ok g =>
    have hat : Net.at (slowNet a n) (stretchF a g) (a * s.time + a * s.tstep) = n.at g (s.time + s.tstep) := by
      have e1 : a⁻¹ * (a * s.time + a * s.tstep) = s.time + s.tstep := by field_simp
      have e2 : (a⁻¹ * g.c1) • a • n.D = g.c1 • n.D := by
        rw [smul_smul]; congr 1; field_simp
      have e3 : (a • n.D) *ᵥ (a⁻¹ • g.c0) = n.D *ᵥ g.c0 := by
        rw [Matrix.smul_mulVec, Matrix.mulVec_smul, smul_smul, mul_inv_cancel₀ ha, one_smul]
      simp only [Net.at, slowNet, stretchF, e1, e2, e3]
    have hp : (stretchF a g).pred = g.pred := rfl
    have hg : (slowNet a n).gmin = n.gmin := rfl
    simp only [Except.map, hat, startX, hp, hg]
    cases Op.dcSolve c.o (n.at g (s.time + s.tstep)) n.gmin
        (some (match if c.control = true then g.pred else none with | some p => p | none => s.x.getD x0)) with
    | solved z =>
      cases ctl with
      | redo t => rfl
      | keep t => simp [slowStatus, slowSt, stretch, slowCtl, stretchF, mul_add, mul_smul]
    | failed =>
      simp only
      split
      · cases ctl <;> rfl
      · rfl
    | raised => rfl
    | outOfFuel => rfl

/-- C168: a transient analysis of the slower circuit with slower sources, given steps longer by the same factor, does the
same as that of the circuit, slower: the times are multiplied by the factor, the values are the same, the derivatives are
divided by it, and it ends in the same way. Non-linear circuits and all methods included. -/
theorem C168_transient_partial (ha : a ≠ 0) (c : Cfg K) (n : Net K m) (tstart step : K) (x0 : Fin m → K) (l : List (Ctl K)) :
    run c (slowNet a n) x0 (l.map (slowCtl a)) (start c (a * tstart) (a * step) x0) =
      slowStatus a (run c n x0 l (start c tstart step x0)) := by
  have key : ∀ s : St K m, run c (slowNet a n) x0 (l.map (slowCtl a)) (slowSt a s) = slowStatus a (run c n x0 l s) := by
    induction l with
    | nil => intro s; rfl
    | cons b r ih =>
      intro s
      rw [List.map_cons]
      unfold run
      rw [pass_slow ha]
      cases pass c n x0 s b with
      | running t => exact ih t
      | halted t => rfl
      | raised t => rfl
  rw [← key]
  congr 1
  simp [start, slowSt, stretch]

/-- C168: in particular the points. -/
theorem C168_points_partial (ha : a ≠ 0) (c : Cfg K) (n : Net K m) (tstart step : K) (x0 : Fin m → K) (l : List (Ctl K)) :
    (run c { n with D := a • n.D, Tt := fun t => n.Tt (a⁻¹ * t) } x0
        (l.map fun s => match s with | .redo h => .redo (a * h) | .keep h => .keep (a * h))
        (start c (a * tstart) (a * step) x0)).st.points.map (fun e => (e.t, e.x)) =
      (run c n x0 l (start c tstart step x0)).st.points.map fun e => (a * e.t, e.x) := by
  have h := C168_transient_partial ha c n tstart step x0 l
  have e1 : slowCtl a = fun s => match s with | .redo h => .redo (a * h) | .keep h => .keep (a * h) := by
    funext s; cases s <;> rfl
  rw [e1] at h
  have h' := congrArg (fun s : Status K m => s.st.points.map (fun e => (e.t, e.x))) h
  refine h'.trans ?_
  cases run c n x0 l (start c tstart step x0) <;> simp [slowStatus, Status.st, slowSt, stretch]

end

/-! ### Local errors -/

section
open Verif.DF
variable {K : Type} [Field K] {a : K}

/-- C168: the local error estimated with the trapezoidal formula does not depend on the unit of time. -/
theorem C168_error_trap (ha : a ≠ 0) (t x dx : Nat → K) (h x1 : K) :
    lte (trap (fun k => a * t k) x (fun k => dx k / a) (a * h)) x1 = lte (trap t x dx h) x1 := by
  have hp : (trap (fun k => a * t k) x (fun k => dx k / a) (a * h)).pred = (trap t x dx h).pred := trap_alpha ha t x h
  unfold lte
  rw [hp]
  congr 1
  have e1 : (trap (fun k => a * t k) x (fun k => dx k / a) (a * h)).xLte = a ^ 3 * (trap t x dx h).xLte := by
    simp only [trap]; ring
  have e2 : (trap (fun k => a * t k) x (fun k => dx k / a) (a * h)).predLte = a ^ 3 * (trap t x dx h).predLte := by
    simp only [trap]; ring
  rw [e1, e2, ← mul_sub, mul_div_mul_left _ _ (pow_ne_zero 3 ha)]

/-- C168: nor does the one of the Gear formulas. -/
theorem C168_error_gear (ha : a ≠ 0) (n : Nat) (t x : Nat → K) (h x1 : K) :
    lte (gear n (fun k => a * t k) x (a * h)) x1 = lte (gear n t x h) x1 := by
  have hp : (gear n (fun k => a * t k) x (a * h)).pred = (gear n t x h).pred := by
    simp only [gear, gearS_slow, gearAlpha_slow ha]
  unfold lte
  rw [hp]
  congr 1
  have e1 : (gear n (fun k => a * t k) x (a * h)).xLte = a ^ (n + 1) * (gear n t x h).xLte := by
    simp only [gear, gearS_slow, gearGamma_slow ha, gearGamma0_slow ha]
    have : ∀ (l : List Nat) (z : K),
        l.foldl (fun b i => b + (a * gearS t h (i + 1)) ^ (n + 1) *
          (-1 * (a⁻¹ * gearGamma n (gearS t h) (i + 1)) / (a⁻¹ * gearGamma0 n (gearS t h)))) (a ^ (n + 1) * z) =
        a ^ (n + 1) * l.foldl (fun b i => b + gearS t h (i + 1) ^ (n + 1) *
          (-1 * gearGamma n (gearS t h) (i + 1) / gearGamma0 n (gearS t h))) z := by
      intro l
      induction l with
      | nil => intro z; rfl
      | cons i l ih =>
        intro z
        simp only [List.foldl_cons]
        rw [← ih]
        congr 1
        have e : -1 * (a⁻¹ * gearGamma n (gearS t h) (i + 1)) / (a⁻¹ * gearGamma0 n (gearS t h)) =
            -1 * gearGamma n (gearS t h) (i + 1) / gearGamma0 n (gearS t h) := by
          rw [show -1 * (a⁻¹ * gearGamma n (gearS t h) (i + 1)) = a⁻¹ * (-1 * gearGamma n (gearS t h) (i + 1)) by ring,
            mul_div_mul_left _ _ (inv_ne_zero ha)]
        rw [e, mul_pow]
        ring
    have h0 := this (List.range n) 0
    rw [mul_zero] at h0
    rw [h0]
    ring
  have e2 : (gear n (fun k => a * t k) x (a * h)).predLte = a ^ (n + 1) * (gear n t x h).predLte := by
    simp only [gear, gearS_slow]
    have : ∀ (l : List Nat) (z : K), l.foldl (fun b i => b * (a * gearS t h (i + 1))) z =
        a ^ l.length * l.foldl (fun b i => b * gearS t h (i + 1)) z := by
      intro l
      induction l using List.reverseRecOn with
      | nil => intro z; simp
      | append_singleton l i ih =>
        intro z
        simp only [List.foldl_append, List.foldl_cons, List.foldl_nil, List.length_append, List.length_singleton, ih]
        ring
    rw [this]
    simp
  rw [e1, e2, ← mul_sub, mul_div_mul_left _ _ (pow_ne_zero _ ha)]

/-- C168 is false for the error estimated with implicit Euler: the coefficient of the formula lacks a factor of the
step. With steps of one second the estimate is a third of the difference to the prediction, with steps of two seconds
a fifth, for values that are the same. -/
theorem C168_error_euler_refuted (x : Nat → ℚ) (x1 : ℚ) :
    let t : Nat → ℚ := fun k => -k
    lte (implicitEuler t x 1) x1 = -(1 / 3) * (2 * x 0 - x 1 - x1) ∧
    lte (implicitEuler (fun k => 2 * t k) x (2 * 1)) x1 = -(1 / 5) * (2 * x 0 - x 1 - x1) := by
  intro t
  constructor
  · simp only [lte, implicitEuler, t]
    push_cast
    ring
  · simp only [lte, implicitEuler, t]
    push_cast
    ring

end

/-! ### AC analysis -/

section
open Verif.Ac Matrix
variable {m : Nat}

/-- the circuit, slower by `a` -/
def slowAc (a : ℝ) (c : AcIn m) : AcIn m := { c with AC := a • c.AC }

theorem Y_slow {a : ℝ} (ha : a ≠ 0) (c : AcIn m) (w g : ℝ) : Y (slowAc a c) (w / a) g = Y c w g := by
  ext i j
  have h : (a : ℂ) ≠ 0 := by exact_mod_cast ha
  simp only [Y, slowAc, of_apply, Matrix.smul_apply, smul_eq_mul, Complex.ofReal_mul, Complex.ofReal_div]
  congr 2
  field_simp

theorem solves_slow {a : ℝ} (ha : a ≠ 0) (c : AcIn m) (w : ℝ) (z : Fin m → ℂ) :
    Solves (slowAc a c) (w / a) z ↔ Solves c w z := by
  unfold Solves
  have hg : (slowAc a c).gmin = c.gmin := rfl
  have hN : (slowAc a c).Nac = c.Nac := rfl
  rw [hg, hN, Y_slow ha, Y_slow ha]

theorem stuck_slow {a : ℝ} (ha : a ≠ 0) (c : AcIn m) (w : ℝ) : Stuck (slowAc a c) (w / a) ↔ Stuck c w := by
  unfold Stuck
  have hg : (slowAc a c).gmin = c.gmin := rfl
  rw [hg, Y_slow ha, Y_slow ha]

theorem solves_unique {c : AcIn m} {w : ℝ} {z1 z2 : Fin m → ℂ} (h1 : Solves c w z1) (h2 : Solves c w z2) : z2 = z1 := by
  have h3 : Solves (c.with ((1 : ℂ) • c.Nac + (0 : ℂ) • c.Nac)) w z2 := by
    rw [one_smul, zero_smul, add_zero]; exact h2
  have := solves_comb (c := c) (N1 := c.Nac) (N2 := c.Nac) h1 h1 h3
  rw [this]; simp

/-- C168: a linear sweep of the slower circuit over frequencies divided by the factor finds the same phasors. -/
theorem C168_ac_linear {o : AOpts} (ho : Default o) (c : AcIn m) {a : ℝ} (ha : 0 < a) (start stop : ℝ) (h0 : start ≠ 0)
    (hs : start ≤ stop) (N : Nat) (hN : 2 ≤ N) (x0 x1 : Fin m → ℂ) :
    let r := acAnalysis o c .lin start stop N x0
    let r' := acAnalysis o { c with AC := a • c.AC } .lin (start / a) (stop / a) N x1
    (r = .ok none ∧ r' = .ok none) ∨
    ∃ p : List (ℝ × (Fin m → ℂ)), r = .ok (some p) ∧ r' = .ok (some (p.map fun q => (q.1 / a, q.2))) := by
  intro r r'
  have hne := ha.ne'
  have hw : ∀ i : Nat, 2 * Real.pi * (start / a + i * ((stop / a - start / a) / (N - 1))) =
      2 * Real.pi * (start + i * ((stop - start) / (N - 1))) / a := by
    intro i
    rw [← sub_div, div_right_comm]
    ring
  have h1 := C120_linear ho c start stop h0 hs N hN x0
  have h2 := C120_linear ho (slowAc a c) (start / a) (stop / a) (div_ne_zero h0 hne)
    (div_le_div_of_nonneg_right hs ha.le) N hN x1
  simp only [hw, stuck_slow hne, solves_slow hne] at h1 h2
  rcases h1 with ⟨e1, i, hi, hst⟩ | ⟨p, e1, hns, hf, hv⟩
  · rcases h2 with ⟨e2, -⟩ | ⟨p', e2, hns', -⟩
    · exact .inl ⟨e1, e2⟩
    · exact absurd hst (hns' i hi)
  · rcases h2 with ⟨e2, i, hi, hst⟩ | ⟨p', e2, -, hf', hv'⟩
    · exact absurd hst (hns i hi)
    · refine .inr ⟨p, e1, ?_⟩
      have : p' = p.map fun q => (q.1 / a, q.2) := by
        have hl : p.length = N := by simpa using congrArg List.length hf
        have hl' : p'.length = N := by simpa using congrArg List.length hf'
        apply List.ext_getElem (by simp [hl, hl'])
        intro i hi hi'
        have hip : i < p.length := by omega
        have hiN : i < N := by omega
        have f1 := congrArg (fun l => l[i]?) hf
        have f2 := congrArg (fun l => l[i]?) hf'
        simp only [List.getElem?_map, List.getElem?_eq_getElem hip, List.getElem?_eq_getElem hi, List.getElem?_range hiN,
          Option.map_some, Option.some.injEq] at f1 f2
        have s1 := hv i p[i] (List.getElem?_eq_getElem hip)
        have s2 := hv' i p'[i] (List.getElem?_eq_getElem hi)
        rw [List.getElem_map]
        ext1
        · show p'[i].1 = p[i].1 / a
          rw [f1, f2, ← sub_div, div_right_comm]
          ring
        · exact solves_unique s1 s2
      rw [← this]
      exact e2

/-- the frequencies of a sequence with a constant ratio -/
theorem geometric {N : Nat} (hN : 2 ≤ N) {start stop q : ℝ} {p : List (ℝ × (Fin m → ℂ))} (hl : p.length = N)
    (h0 : (p[0]?.map (·.1)) = some start) (h1 : (p[N - 1]?.map (·.1)) = some stop)
    (hr : ∀ (i : Nat) b b', p[i]? = some b → p[i + 1]? = some b' → b'.1 = q * b.1) :
    (∀ (i : Nat) b, p[i]? = some b → b.1 = start * q ^ i) ∧ stop = start * q ^ (N - 1) := by
  have key : ∀ (i : Nat) b, p[i]? = some b → b.1 = start * q ^ i := by
    intro i
    induction i with
    | zero =>
      intro b hb
      rw [hb] at h0
      simpa using h0
    | succ i ih =>
      intro b hb
      have hi : i < p.length := by
        have := (List.getElem?_eq_some_iff.1 hb).1
        omega
      have := hr i p[i] b (List.getElem?_eq_getElem hi) hb
      rw [this, ih p[i] (List.getElem?_eq_getElem hi)]
      ring
  refine ⟨key, ?_⟩
  have hi : N - 1 < p.length := by omega
  rw [List.getElem?_eq_getElem hi] at h1
  have := key (N - 1) p[N - 1] (List.getElem?_eq_getElem hi)
  rw [← this]
  simpa using h1.symm

/-- C168: the same for a logarithmic sweep. -/
theorem C168_ac_log {o : AOpts} (ho : Default o) (c : AcIn m) {a : ℝ} (ha : 0 < a) (start stop : ℝ) (h0 : 0 < start)
    (hs : start < stop) (N : Nat) (hN : 2 ≤ N) (x0 x1 : Fin m → ℂ) (p p' : List (ℝ × (Fin m → ℂ)))
    (hp : acAnalysis o c .log start stop N x0 = .ok (some p))
    (hp' : acAnalysis o { c with AC := a • c.AC } .log (start / a) (stop / a) N x1 = .ok (some p')) :
    p' = p.map fun q => (q.1 / a, q.2) := by
  have hne := ha.ne'
  have h1 := C120_log ho c start stop h0 hs N hN x0
  have h2 := C120_log ho (slowAc a c) (start / a) (stop / a) (div_pos h0 ha) (div_lt_div_of_pos_right hs ha) N hN x1
  rw [hp] at h1
  rw [show acAnalysis o (slowAc a c) .log (start / a) (stop / a) N x1 = .ok (some p') from hp'] at h2
  rcases h1 with ⟨e, -⟩ | ⟨b, e, hl, hv, f0, f1, q, hq, hr⟩
  · cases e
  cases e
  rcases h2 with ⟨e, -⟩ | ⟨b', e, hl', hv', f0', f1', q', hq', hr'⟩
  · cases e
  cases e
  obtain ⟨g, gs⟩ := geometric hN hl f0 f1 hr
  obtain ⟨g', gs'⟩ := geometric hN hl' f0' f1' hr'
  have hqq : q' = q := by
    have : q' ^ (N - 1) = q ^ (N - 1) := by
      rw [gs] at gs'
      field_simp at gs'
      exact gs'.symm
    exact (pow_left_inj₀ (by linarith) (by linarith) (by omega)).1 this
  apply List.ext_getElem (by simp [hl, hl'])
  intro i hi hi'
  have hip : i < p.length := by omega
  have s1 := hv i p[i] (List.getElem?_eq_getElem hip)
  have s2 := hv' i p'[i] (List.getElem?_eq_getElem hi)
  have t1 := g i p[i] (List.getElem?_eq_getElem hip)
  have t2 := g' i p'[i] (List.getElem?_eq_getElem hi)
  have hf : p'[i].1 = p[i].1 / a := by rw [t1, t2, hqq]; ring
  rw [List.getElem_map]
  ext1
  · exact hf
  · have s2' := s2.2.2
    rw [hf, show 2 * Real.pi * (p[i].1 / a) = 2 * Real.pi * p[i].1 / a by ring, solves_slow hne] at s2'
    exact solves_unique s1.2.2 s2'

end

/-! ### The capacitance that is added -/

/-- C168: AC analysis uses the same matrix. -/
theorem C168_ac_matrix_partial {α : Type} [Field α] (a : α) (circ : List (Elem α)) (nv S : Nat) (cmin : α) :
    generateAC (circ.map (slow a)) nv S (a * cmin) =
      (generateAC circ nv S cmin).map fun D => fun i j => a * D i j := by
  rw [C08_ac_same, C08_ac_same, C168_transient_matrix_partial]

/-- C168 is false with the capacitance `options.cmin` that is added at all nodes: it is not made slower with the circuit. -/
theorem C168_cmin_refuted (a cmin : ℚ) (ha : a ≠ 1) (hc : cmin ≠ 0) :
    ∃ circ : List (Elem ℚ), ∃ D D' : Mat ℚ, generateD circ 2 2 cmin = .ok D ∧
      generateD (circ.map (slow a)) 2 2 cmin = .ok D' ∧ D' 1 1 ≠ a * D 1 1 := by
  refine ⟨[.C "C1" 1 0 1 none], _, _, rfl, rfl, ?_⟩
  simp only [Mat.add, Mat.put, cminMat]
  norm_num
  intro h
  have : cmin * (1 - a) = 0 := by linear_combination h
  rcases mul_eq_zero.1 this with h | h
  · exact hc h
  · exact ha (by linarith)

/-! ### Examples -/

example : generateD ([.C "C1" 1 0 2 none, .L "L1" 1 0 3 none []].map (slow (5 : ℚ))) 2 3 0 =
    (generateD [.C "C1" 1 0 2 none, .L "L1" 1 0 3 none []] 2 3 0).map fun D => fun i j => 5 * D i j := by
  simpa using C168_transient_matrix_partial (5 : ℚ) [.C "C1" 1 0 2 none, .L "L1" 1 0 3 none []] 2 3 0

example (l : List (Tran.Ctl ℚ)) :
    Tran.run ⟨Op.dflt, .trap, true, 3⟩ (slowNet 10 (Super.rc 1 1)) ![0] (l.map (slowCtl 10))
        (Tran.start ⟨Op.dflt, .trap, true, 3⟩ (10 * 0) (10 * 1) ![0]) =
      slowStatus 10 (Tran.run ⟨Op.dflt, .trap, true, 3⟩ (Super.rc 1 1) ![0] l
        (Tran.start ⟨Op.dflt, .trap, true, 3⟩ 0 1 ![0])) :=
  C168_transient_partial (by norm_num) _ _ 0 1 ![0] l

end Verif.Scale
