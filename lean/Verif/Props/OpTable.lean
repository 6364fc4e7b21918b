import Verif.Model.OpTable
import Verif.Props.Op
import Verif.Props.Results
import Mathlib.Tactic.LinearCombination
import Mathlib.Data.Rat.Floor

/-!
C193: the table printed for an operating point.
C194: the short print-out of an operating point.
-/

namespace Verif.OpTable
open Verif.Circuit Verif.Csv Verif.Results Verif.Homotopy Verif.Op Matrix

variable {K : Type} [Field K] [LinearOrder K]

/-! ### `dc_solve` with errors is `dc_solve` -/

def outMap {A B : Type} (f : A → B) : Out A → Out B
  | .solved a => .solved (f a)
  | .failed => .failed
  | .raised => .raised
  | .outOfFuel => .outOfFuel

theorem attemptE_x {m : Nat} (o : OOpts K) (p : Newton.Problem K m) (v : Vars K m) :
    (attemptE o p v).map (fun a => (a.1.x, a.2)) = attempt o p v.x := by
  unfold attemptE attempt
  split <;> simp_all

theorem loopE_x {m : Nat} (o : OOpts K) (c : Circ K m) (g : K) (k : Nat) (s : State) (v : Vars K m) :
    outMap Vars.x (loopE o c g k s v) = loopX o c g k s v.x := by
  induction k generalizing s v with
  | zero => rfl
  | succ k ih =>
    unfold loopE loopX
    cases hy : choose o.meth s with
    | error e => rfl
    | ok y =>
      simp only
      rw [← attemptE_x]
      cases h : attemptE o (problem c g y) v with
      | none => rfl
      | some a =>
        obtain ⟨v', conv⟩ := a
        simp only [Option.map_some]
        cases after o.meth { s with sys := some y } conv with
        | next s' => exact ih s' v'
        | success => rfl
        | failure => rfl

/-- what is printed belongs to the operating point of C119 -/
theorem report_op {m : Nat} (o : OOpts K) (c : Circ K m) (gmin : K) (x0 : Option (Fin m → K)) :
    (opReport o c gmin x0).map (Option.map fun r => (⟨r.x, r.gmin⟩ : Op.OpSol K m)) = opAnalysis o c gmin x0 := by
  have h1 := loopE_x o c gmin 64 (setNext o.meth init) { x := x0.getD 0 }
  unfold opReport opAnalysis dcSolveE Op.dcSolve
  cases e : loopE o c gmin 64 (setNext o.meth init) { x := x0.getD 0 } with
  | solved v1 =>
    rw [e] at h1
    simp only [outMap] at h1
    rw [← h1]
    simp only
    have h2 := loopE_x o c 0 64 (setNext o.meth init) { x := (some v1.x).getD 0 }
    cases e2 : loopE o c 0 64 (setNext o.meth init) { x := (some v1.x).getD 0 } with
    | solved v2 => rw [e2] at h2; simp only [outMap] at h2; rw [← h2]; rfl
    | failed => rw [e2] at h2; simp only [outMap] at h2; rw [← h2]; rfl
    | raised => rw [e2] at h2; simp only [outMap] at h2; rw [← h2]; rfl
    | outOfFuel => rw [e2] at h2; simp only [outMap] at h2; rw [← h2]; rfl
  | failed => rw [e] at h1; simp only [outMap] at h1; rw [← h1]; rfl
  | raised => rw [e] at h1; simp only [outMap] at h1; rw [← h1]; rfl
  | outOfFuel => rw [e] at h1; simp only [outMap] at h1; rw [← h1]; rfl

theorem loopE_from {m : Nat} (o : OOpts K) (c : Circ K m) (g : K) (k : Nat) (s : State) (v w : Vars K m)
    (h : loopE o c g k s v = .solved w) :
    ∃ y x' r, Newton.mdnSolver o.newton o.tol (problem c g y) o.maxit (some x') = .ok r ∧ r.converged = true ∧
      w.x = r.x ∧ w.error = some r.res := by
  induction k generalizing s v with
  | zero => simp [loopE] at h
  | succ k ih =>
    unfold loopE at h
    split at h
    · cases h
    · rename_i y hy
      split at h
      · cases h
      · rename_i v' conv ha
        split at h
        · exact ih _ _ h
        · rename_i hsucc
          obtain ⟨e, -⟩ := after_success hsucc
          cases h
          subst e
          unfold attemptE at ha
          split at ha
          · rename_i r hr
            simp only [Option.some.injEq, Prod.mk.injEq] at ha
            exact ⟨y, v.x, r, hr, ha.2, by rw [← ha.1], by rw [← ha.1]⟩
          · simp at ha
          · cases ha
        · cases h

/-- C193: the number of iterations covers all calls of the Newton solver: `n` iterations done before are in the number
reported. -/
theorem C193_iterations {m : Nat} (o : OOpts K) (c : Circ K m) (g : K) (k : Nat) (s : State) (v w : Vars K m) (n : Nat)
    (h : loopE o c g k s v = .solved w) :
    v.iterations ≤ w.iterations ∧
    loopE o c g k s { v with iterations := v.iterations + n } = .solved { w with iterations := w.iterations + n } := by
  induction k generalizing s v with
  | zero => simp [loopE] at h
  | succ k ih =>
    have hatt : ∀ p v' b, attemptE o p v = some (v', b) → v.iterations ≤ v'.iterations ∧
        attemptE o p { v with iterations := v.iterations + n } = some ({ v' with iterations := v'.iterations + n }, b) := by
      intro p v' b hp
      unfold attemptE at hp ⊢
      simp only
      split at hp
      · simp only [Option.some.injEq, Prod.mk.injEq] at hp
        obtain ⟨rfl, rfl⟩ := hp
        exact ⟨Nat.le_add_right _ _, by simp only [Nat.add_right_comm]⟩
      · simp only [Option.some.injEq, Prod.mk.injEq] at hp
        obtain ⟨rfl, rfl⟩ := hp
        exact ⟨le_rfl, rfl⟩
      · cases hp
    unfold loopE at h ⊢
    split at h
    · cases h
    · rename_i y hy
      split at h
      · cases h
      · rename_i v' conv ha
        obtain ⟨h1, h2⟩ := hatt _ _ _ ha
        rw [h2]
        simp only
        split at h
        · obtain ⟨h3, h4⟩ := ih _ _ h
          exact ⟨h1.trans h3, h4⟩
        · cases h
          exact ⟨h1, rfl⟩
        · cases h

variable [IsStrictOrderedRing K]

/-- C193: an operating point of a non-linear circuit is printed with errors below the tolerances: the absolute tolerance
of currents for node voltages and that of voltages for currents, as the errors are those of the equations. Missing: linear
circuits (`C193_linear`), and that the errors are those of the printed values (`C193_values_refuted`). -/
theorem C193_tolerance_partial {m : Nat} (o : OOpts K) (c : Circ K m) (hn : c.nonlinear = true) (gmin : K)
    (x0 : Option (Fin m → K)) (r : Report K m) (h : opReport o c gmin x0 = some (some r)) :
    ∃ e, r.error = some e ∧ ∀ i : Fin m, |e i| ≤ if i.val < c.nn then o.tol.iea else o.tol.vea := by
  have key : ∀ g x (w : Vars K m), dcSolveE o c g x = .solved w →
      ∃ e, w.error = some e ∧ ∀ i : Fin m, |e i| ≤ if i.val < c.nn then o.tol.iea else o.tol.vea := by
    intro g x w hw
    obtain ⟨y, x', r, h1, h2, -, h4⟩ := loopE_from o c g _ _ _ _ hw
    refine ⟨r.res, h4, fun i => ?_⟩
    have := Newton.C78_converged_within_tolerance o.newton o.tol (problem c g y) hn o.maxit (some x') r h1 h2 i
    have e : (problem c g y).nv - 1 = c.nn := by simp [problem]
    rw [e] at this
    split_ifs at this ⊢ <;> exact this.2
  unfold opReport at h
  split at h
  · simp at h
  · rename_i v1 h1
    split at h
    · simp only [Option.some.injEq] at h; subst h; exact key _ _ _ h1
    · rename_i v2 h2
      simp only [Option.some.injEq] at h; subst h; exact key _ _ _ h2
    · simp at h
  · simp at h

omit [LinearOrder K] [IsStrictOrderedRing K] in
theorem gmin_zero {m : Nat} (n : Nat) : gminMat (m := m) n (0 : K) = 0 := by
  unfold gminMat
  ext i j
  by_cases e : i = j
  · subst e; simp
  · simp [Matrix.diagonal_apply_ne _ e]

theorem dcSolveE_regular {m : Nat} {o : OOpts K} (ho : Plain o) (hm : o.meth.std = true) {c : Circ K m}
    (hc : Linear c) (g : K) (hd : (c.mna + gminMat c.nn g).det ≠ 0) (x0 : Option (Fin m → K)) (k : Nat) :
    ∃ z, dcSolveE o c g x0 (k + 1) =
      .solved ⟨z, some ((c.mna + gminMat c.nn g) *ᵥ (x0.getD 0) + (c.N + c.Ntran)), 1⟩ ∧
      (c.mna + gminMat c.nn g) *ᵥ z + (c.N + c.Ntran) = 0 := by
  obtain ⟨r, h1, h2, h3, h4⟩ := Newton.C15_linear_exact ([] : List (Circuit.Elem K)) rfl o.newton ho.damp o.tol
    (problem c g .full) hc.nl hc.locked hd o.maxit ho.maxit (some (x0.getD 0))
  have h5 : r.res = (c.mna + gminMat c.nn g) *ᵥ (x0.getD 0) + (c.N + c.Ntran) := by
    obtain ⟨k, hk⟩ : ∃ k, o.maxit = k + 1 := ⟨o.maxit - 1, by have := ho.maxit; omega⟩
    have hnl : (problem c g .full).nonlinear = false := hc.nl
    have h := h1
    unfold Newton.mdnSolver at h
    rw [hk] at h
    unfold Newton.loop at h
    simp only [Option.getD_some, hnl, Bool.not_false, if_true] at h
    split at h
    · cases h
    · cases h
      simp [Newton.residual, problem, hc.nl]
  refine ⟨r.x, ?_, h4⟩
  have hs : (setNext o.meth init).std.enabled = true ∧ (setNext o.meth init).gm.enabled = false ∧
      (setNext o.meth init).src.enabled = false := by simp [setNext, init, hm]
  unfold dcSolveE loopE
  have : choose o.meth (setNext o.meth init) = .ok .full := by unfold choose; rw [if_pos hs.1]
  rw [this]
  have ha : attemptE o (problem c g .full) { x := x0.getD 0 } =
      some (⟨r.x, some ((c.mna + gminMat c.nn g) *ᵥ (x0.getD 0) + (c.N + c.Ntran)), 1⟩, true) := by
    unfold attemptE
    simp only
    rw [h1]
    simp only [h2, h3, h5, Nat.zero_add]
  simp only [ha]
  simp only [after, hs, Bool.not_true, Bool.false_eq_true, if_false, Bool.false_and]

/-- C193: for a linear circuit the errors printed beside the exact solution are what Gmin took from the nodes in the first
of the two solutions: `-gmin` times the voltage of the node in the circuit with Gmin, and nothing for the currents. Two
iterations are reported. -/
theorem C193_linear {m : Nat} {o : OOpts K} (ho : Plain o) (hm : o.meth.std = true) {c : Circ K m}
    (hc : Linear c) (gmin : K) (h0 : c.mna.det ≠ 0) (h1 : (c.mna + gminMat c.nn gmin).det ≠ 0)
    (x0 : Option (Fin m → K)) :
    ∃ x x1 : Fin m → K, ∃ e, opReport o c gmin x0 = some (some ⟨x, some e, 2, 0⟩) ∧
      c.mna *ᵥ x + (c.N + c.Ntran) = 0 ∧ (c.mna + gminMat c.nn gmin) *ᵥ x1 + (c.N + c.Ntran) = 0 ∧
      ∀ i : Fin m, e i = if i.val < c.nn then -(gmin * x1 i) else 0 := by
  obtain ⟨x1, e1, s1⟩ := dcSolveE_regular ho hm hc gmin h1 x0 63
  obtain ⟨x2, e2, s2⟩ := dcSolveE_regular ho hm hc 0 (by rwa [gmin_zero, add_zero]) (some x1) 63
  rw [gmin_zero, add_zero] at s2 e2
  refine ⟨x2, x1, c.mna *ᵥ x1 + (c.N + c.Ntran), ?_, s2, s1, fun i => ?_⟩
  · unfold opReport
    rw [e1]
    simp only
    rw [e2]
    rfl
  · have := congrFun s1 i
    simp only [add_mulVec, Pi.add_apply, Pi.zero_apply, gminMat, mulVec_diagonal] at this ⊢
    by_cases hi : i.val < c.nn
    · simp only [hi, if_true] at this ⊢; linear_combination this
    · simp only [hi, if_false, zero_mul] at this ⊢; linear_combination this

/-- the hypotheses of `C193_tolerance_partial` are met by two amperes through one ohm and a device with the current `v²`,
started at the solution -/
example : ∃ r : Report ℚ 1, opReport dflt ⟨!![1], ![-2], 0, 1, true, fun x => !![2 * x 0], fun x => ![x 0 ^ 2], []⟩ 0
    (some ![1]) = some (some r) := by
  set c : Circ ℚ 1 := ⟨!![1], ![-2], 0, 1, true, fun x => !![2 * x 0], fun x => ![x 0 ^ 2], []⟩ with hc
  have hz : gminMat (m := 1) c.nn (0 : ℚ) = 0 := gmin_zero _
  have hn : (problem c 0 .full).nonlinear = true := rfl
  obtain ⟨r, h1, h2, h3, -⟩ := Newton.C78_stays_at_solution dflt.newton dflt.tol (problem c 0 .full)
    (by simp [dflt]) dflt.maxit (by simp [dflt]) ![1] (by
      simp only [Newton.residual, hn, if_true]
      simp only [problem, hz]
      ext i; fin_cases i
      simp [hc, vecHead]; norm_num) (by
      simp only [Newton.jac, hn, if_true]
      simp only [problem, hz]
      simp [hc]; norm_num)
  have h : ∃ v, dcSolveE dflt c 0 (some ![1]) = .solved v ∧ v.x = ![1] := by
    unfold dcSolveE loopE
    have : choose dflt.meth (setNext dflt.meth init) = .ok .full := by decide
    rw [this]
    unfold attemptE
    simp only [Option.getD_some, h1, h3]
    exact ⟨_, rfl, h2⟩
  obtain ⟨v, hv, hx⟩ := h
  unfold opReport
  rw [hv]
  simp only [hx, hv]
  exact ⟨_, rfl⟩

/-- one ampere through one ohm -/
def ohm : Circ ℚ 1 := ⟨!![1], ![-1], 0, 1, false, fun _ => 0, fun _ => 0, []⟩

/-- C193: the errors are not those of the printed values: one ampere through one ohm gives exactly one volt, which solves
the equation without any error, and the error printed with it is not zero. -/
theorem C193_values_refuted :
    ∃ e : Fin 1 → ℚ, opReport dflt ohm (1 / 10 ^ 12) none = some (some ⟨![1], some e, 2, 0⟩) ∧
      ohm.mna *ᵥ ![1] + (ohm.N + ohm.Ntran) = 0 ∧ e 0 ≠ 0 := by
  have hg : gminMat (m := 1) 1 (1 / 10 ^ 12 : ℚ) = !![1 / 10 ^ 12] := by
    unfold gminMat; ext i j; fin_cases i; fin_cases j; simp
  obtain ⟨x, x1, e, h, s, s1, he⟩ := C193_linear (o := dflt) ⟨rfl, by decide⟩ rfl (c := ohm) ⟨rfl, rfl⟩ (1 / 10 ^ 12)
    (by simp [ohm]) (by show (_ + gminMat 1 _ : Matrix (Fin 1) (Fin 1) ℚ).det ≠ 0; rw [hg]; simp [ohm]; norm_num) none
  have hx : x = ![1] := by
    ext i; fin_cases i
    have := congrFun s 0
    simp [ohm, dotProduct] at this
    simp; linarith
  subst hx
  refine ⟨e, h, s, ?_⟩
  rw [he 0]
  have := congrFun s1 0
  have hn : ohm.nn = 1 := rfl
  rw [hn, hg] at this
  simp [ohm, dotProduct] at this
  rw [hn]
  simp only [Fin.val_zero, Nat.lt_one_iff, if_true]
  intro h0
  have hx1 : x1 0 = 0 := by
    rcases mul_eq_zero.mp (neg_eq_zero.mp h0) with h | h
    · norm_num at h
    · exact h
  rw [hx1] at this
  norm_num at this

/-! ### The lines of the table -/

/-- C193: the printed percentage is the part of the value that the error makes up, with the fraction cut off. -/
theorem C193_percent [FloorRing K] (q : K) :
    |((percentD q : Int) : K)| ≤ |q| ∧ |q| < |((percentD q : Int) : K)| + 1 ∧ 0 ≤ ((percentD q : Int) : K) * q := by
  unfold percentD
  split
  · rename_i h
    have h1 : (0 : K) ≤ (⌊q⌋ : Int) := by exact_mod_cast Int.floor_nonneg.mpr h
    rw [abs_of_nonneg h, abs_of_nonneg h1]
    exact ⟨Int.floor_le q, Int.lt_floor_add_one q, mul_nonneg h1 h⟩
  · rename_i h
    have h := le_of_lt (not_le.mp h)
    have h1 : ((⌈q⌉ : Int) : K) ≤ 0 := by
      have : ⌈q⌉ ≤ 0 := Int.ceil_le.mpr (by simpa using h)
      exact_mod_cast this
    rw [abs_of_nonpos h, abs_of_nonpos h1]
    refine ⟨neg_le_neg (Int.le_ceil q), ?_, mul_nonneg_of_nonpos_of_nonpos h1 h⟩
    have := Int.ceil_lt_add_one q
    linarith

theorem mapM_some {A B : Type} (f : A → Option B) (g : A → B) (l : List A) (h : ∀ a ∈ l, f a = some (g a)) :
    l.mapM f = some (l.map g) := by
  induction l with
  | nil => rfl
  | cons a l ih =>
    rw [List.mapM_cons, h a (by simp), ih fun b hb => h b (by simp [hb])]
    rfl

/-- C193: the table has a line for each unknown, in order: its name, its unit, its value, its error, and the error in
percent of the value, or 0 if the value is 0. -/
theorem C193_lines [FloorRing K] {α : Type} (nodes : List Word) (circ : List (Elem α)) (hn : (nodes.map upperW).Nodup)
    (hu : UniqueVde circ) (x e : List K) (hx : x.length = nodes.length + (vdes circ).length) (he : e.length = x.length) :
    ∃ t, table nodes circ x e = some t ∧ t.length = x.length ∧
      ∀ i (hi : i < t.length) (h1 : i < (opVars nodes circ).length) (h2 : i < x.length) (h3 : i < e.length),
        t[i] = ⟨(opVars nodes circ)[i], if i < nodes.length then 'V' else 'A', x[i], e[i],
          if x[i] = 0 then 0 else percentD (e[i] / x[i] * 100)⟩ := by
  have hd := C50_distinct nodes circ hn hu
  have hl : (opVars nodes circ).length = x.length := by simp [opVars, baseVars, hx, vdes]
  have hv : (opSolution nodes circ x).vars = opVars nodes circ := by
    simp [opSolution, opVars, baseVars, List.map_map, Function.comp_def]
  have hd' : ((opVars nodes circ).map upperW).Nodup := by
    simpa [opVars, upperW_upperW, List.map_map, Function.comp_def] using hd
  have line : ∀ i (h1 : i < (opVars nodes circ).length) (h2 : i < x.length) (h3 : i < e.length),
      tableLine (opSolution nodes circ x) (opErrors nodes circ e) (opVars nodes circ)[i] =
        some ⟨(opVars nodes circ)[i], if i < nodes.length then 'V' else 'A', x[i], e[i],
          if x[i] = 0 then 0 else percentD (e[i] / x[i] * 100)⟩ := by
    intro i h1 h2 h3
    have a := op_results nodes circ hd x hl.symm i h1
    have b := op_units nodes circ hd x i h1
    have c : ciGet (opErrors nodes circ e) (opVars nodes circ)[i] = e[i]? :=
      ciGet_zip _ _ hd' (by omega) i h1 _ rfl
    rw [List.getElem?_eq_getElem h2] at a
    rw [List.getElem?_eq_getElem h3] at c
    unfold tableLine
    simp only [a, b, c, Option.bind_eq_bind, Option.bind_some]
    by_cases h0 : x[i] = 0
    · simp [h0, percentD]
    · simp [h0]
  have all : (opVars nodes circ).mapM (tableLine (opSolution nodes circ x) (opErrors nodes circ e)) =
      some ((List.range x.length).map fun i => (⟨(opVars nodes circ).getD i [], if i < nodes.length then 'V' else 'A',
        x.getD i 0, e.getD i 0, if x.getD i 0 = 0 then 0 else percentD (e.getD i 0 / x.getD i 0 * 100)⟩ : Line K)) := by
    have : opVars nodes circ = (List.range x.length).map fun i => (opVars nodes circ).getD i [] := by
      apply List.ext_getElem
      · simp [hl]
      · intro i h1 h2
        simp [h1]
    conv_lhs => rw [this]
    rw [List.mapM_map]
    refine mapM_some _ _ _ fun i hi => ?_
    have hi : i < x.length := List.mem_range.mp hi
    have := line i (by omega) hi (by omega)
    have a : i < (opVars nodes circ).length := by omega
    have b : i < e.length := by omega
    simpa [hi, a, b] using this
  rw [table, hv]
  refine ⟨_, all, by simp, fun i hi h1 h2 h3 => ?_⟩
  simp [h1, h2, h3]

/-- C193: with a value of zero the percentage says nothing: an error of any size is printed with 0 percent. -/
theorem C193_zero_refuted (big : ℚ) :
    table ["n".toList] ([] : List (Elem ℚ)) [0] [big] = some [⟨"VN".toList, 'V', 0, big, 0⟩] := by
  obtain ⟨t, h1, h2, h3⟩ := C193_lines ["n".toList] ([] : List (Elem ℚ)) (by simp) (by simp [UniqueVde, vdes]) [0] [big]
    (by simp [vdes]) rfl
  have hl : t.length = 1 := by simpa using h2
  have := h3 0 (by omega) (by simp [opVars, baseVars]) (by simp) (by simp)
  obtain ⟨a, rfl⟩ := List.length_eq_one_iff.mp hl
  rw [h1]
  simp only [List.getElem_cons_zero] at this
  rw [this]
  simp [opVars, baseVars, voltName, upperW]

/-! ### The short form -/

theorem short_fold {β : Type} (cells : List β) :
    let s := cells.foldl shortStep ([], [])
    s.1.flatten ++ s.2 = cells ∧ (∀ l ∈ s.1, l.length = 5) ∧ s.2.length < 5 ∧ s.1.length = cells.length / 5 := by
  induction cells using List.reverseRecOn with
  | nil => simp
  | append_singleton l c ih =>
    simp only [List.foldl_append, List.foldl_cons, List.foldl_nil] at ih ⊢
    obtain ⟨a, b, d, e⟩ := ih
    set s := l.foldl shortStep ([], []) with hs
    have hl : l.length = 5 * s.1.length + s.2.length := by
      have : s.1.flatten.length = 5 * s.1.length := by
        rw [List.length_flatten, List.eq_replicate_of_mem (a := 5) (l := s.1.map List.length) (by
          intro n hn; obtain ⟨r, hr, rfl⟩ := List.mem_map.mp hn; exact b r hr)]
        simp; omega
      rw [← a, List.length_append, this]
    unfold shortStep
    simp only [List.length_append, List.length_cons, List.length_nil]
    split
    · rename_i h5
      refine ⟨by simp [← a], ?_, by simp, by simp; omega⟩
      intro r hr
      rcases List.mem_append.mp hr with h | h
      · exact b r h
      · rw [List.mem_singleton.mp h]; simp; omega
    · rename_i h5
      refine ⟨by simp [← a], b, by simp; omega, by simp; omega⟩

/-- C194: the short print-out has five columns; read line by line it is the list of all variables, in order, followed by
fewer than five blanks. -/
theorem C194_short {β : Type} (blank : β) (cells : List β) :
    (∀ l ∈ printShort blank cells, l.length = 5) ∧
      ∃ k, k < 5 ∧ (printShort blank cells).flatten = cells ++ List.replicate k blank := by
  obtain ⟨a, b, d, -⟩ := short_fold cells
  unfold printShort
  simp only at a b d ⊢
  split
  · rename_i h
    refine ⟨fun l hl => ?_, 5 - (cells.foldl shortStep ([], [])).2.length, by omega, ?_⟩
    · rcases List.mem_append.mp hl with h' | h'
      · exact b l h'
      · rw [List.mem_singleton.mp h']; simp; omega
    · rw [List.flatten_append, List.flatten_singleton, ← List.append_assoc, a]
  · rename_i h
    have : (cells.foldl shortStep ([], [])).2 = [] := List.length_eq_zero_iff.mp (by omega)
    rw [this, List.append_nil] at a
    exact ⟨b, 0, by omega, by simp [a]⟩

example : printShort "" ["a", "b", "c", "d", "e", "f", "g"] = [["a", "b", "c", "d", "e"], ["f", "g", "", "", ""]] := by
  decide

/-- the hypotheses of `C193_lines` are met by a circuit with a source, with values and errors of either sign -/
example : (table ["in".toList, "out".toList] [Elem.V "V1" 1 0 ⟨some 2, none, false, none⟩, .R "R1" 1 2 3]
    [(2 : ℚ), -1, 1/2] [1/8, 1/16, -1/7]).map (·.map Line.percent) = some [6, -6, -28] := by
  decide +kernel

end Verif.OpTable
