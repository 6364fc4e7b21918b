import Verif.Model.Tran
import Verif.Props.Op
import Verif.Props.DF
import Mathlib.Tactic.LinearCombination
import Mathlib.LinearAlgebra.Matrix.DotProduct
import Mathlib.LinearAlgebra.Matrix.ToLinearEquiv

/-!
C121: every transient point satisfies the circuit equations at its time, with the derivative given by the
formula in use.
C122: the history always holds what the formula needs.
C124: without sources the stored energy never increases.
-/

namespace Verif.Tran
open Verif.Op Verif.Homotopy Matrix
open Verif.Circuit (Err)

variable {K : Type} [Field K] [LinearOrder K] [IsStrictOrderedRing K] {m : Nat}

/-! ### C122: the history -/

/-- the entries of the history, newest first, for the initial point and the points found so far -/
def history (tstart : K) (x0 : Fin m → K) (pts : List (Entry K m)) : List (Entry K m) :=
  pts.reverse ++ [⟨tstart, x0, none⟩]

/-- what holds of the loop variables at the beginning of each pass -/
structure Inv (c : Cfg K) (tstart : K) (x0 : Fin m → K) (s : St K m) : Prop where
  iter : s.iter = s.points.length
  buf : s.buf = (history tstart x0 s.points).take c.len
  dx : ∀ e ∈ s.points, e.dx.isSome = true
  time : s.time = tAt (history tstart x0 s.points) 0
  x : s.x.getD x0 = xAt (history tstart x0 s.points) 0

omit [LinearOrder K] [IsStrictOrderedRing K] in
theorem inv_start (c : Cfg K) (tstart step : K) (x0 : Fin m → K) : Inv c tstart x0 (start c tstart step x0) :=
  ⟨rfl, rfl, by simp [start], rfl, rfl⟩

omit [IsStrictOrderedRing K] in
/-- what a pass does to the points: nothing, or one more point, which solves the system of that pass -/
theorem pass_cases {c : Cfg K} {n : Net K m} {x0 : Fin m → K} {s s' : St K m} {a : Ctl K}
    (h : pass c n x0 s a = .running s') :
    (∃ st, s' = { s with tstep := st }) ∨
    ∃ f x1, formula c.meth c.control s.iter s.buf s.tstep = .ok f ∧
      dcSolve c.o (n.at f (s.time + s.tstep)) n.gmin (some (startX c x0 s f)) = .solved x1 ∧
      ∃ st, s' = { time := s.time + s.tstep, tstep := st, iter := s.iter + 1, x := some x1,
                   buf := ((⟨s.time + s.tstep, x1, some (f.c1 • x1 + f.c0)⟩ : Entry K m) :: s.buf).take c.len,
                   points := s.points ++ [⟨s.time + s.tstep, x1, some (f.c1 • x1 + f.c0)⟩] } := by
  unfold pass at h
  split at h
  · cases h
  · rename_i f hf
    split at h
    · rename_i x1 hx
      cases a with
      | redo st => simp only [Status.running.injEq] at h; exact .inl ⟨st, h.symm⟩
      | keep st => simp only [Status.running.injEq] at h; exact .inr ⟨f, x1, hf, hx, st, h.symm⟩
    · split at h
      · cases a with
        | redo st => simp only [Status.running.injEq] at h; exact .inl ⟨st, h.symm⟩
        | keep st => simp only [Status.running.injEq] at h; exact .inl ⟨st, h.symm⟩
      · cases h
    · cases h

omit [IsStrictOrderedRing K] in
theorem inv_pass {c : Cfg K} {n : Net K m} {tstart : K} {x0 : Fin m → K} {s s' : St K m} {a : Ctl K}
    (hi : Inv c tstart x0 s) (h : pass c n x0 s a = .running s') : Inv c tstart x0 s' := by
  rcases pass_cases h with ⟨st, rfl⟩ | ⟨f, x1, -, -, st, rfl⟩
  · exact ⟨hi.iter, hi.buf, hi.dx, hi.time, hi.x⟩
  · refine ⟨?_, ?_, ?_, ?_, ?_⟩
    · simp only [List.length_append, List.length_singleton, hi.iter]
    · simp only [history, List.reverse_append, List.reverse_singleton, List.cons_append, List.nil_append]
      rw [hi.buf]
      cases hl : c.len with
      | zero => simp
      | succ k =>
        simp [List.take_succ_cons, history, List.take_take]
    · intro e he
      rcases List.mem_append.mp he with he | he
      · exact hi.dx e he
      · rw [List.mem_singleton.mp he]; rfl
    · simp [history, tAt]
    · funext i
      simp [history, xAt]

omit [IsStrictOrderedRing K] in
theorem inv_run {c : Cfg K} {n : Net K m} {tstart : K} {x0 : Fin m → K} (l : List (Ctl K)) {s : St K m}
    (hi : Inv c tstart x0 s) : Inv c tstart x0 (run c n x0 l s).st := by
  induction l generalizing s with
  | nil => exact hi
  | cons a r ih =>
    unfold run
    rcases hp : pass c n x0 s a with s' | s' | s'
    · exact ih (inv_pass hi hp)
    · have : s' = s := by
        unfold pass at hp
        split at hp
        · cases hp
        · split at hp
          · cases a <;> cases hp
          · split at hp
            · cases a <;> cases hp
            · cases hp; rfl
          · cases hp
      subst this; exact hi
    · have : s' = s := by
        unfold pass at hp
        split at hp
        · cases hp; rfl
        · split at hp
          · cases a <;> cases hp
          · split at hp
            · cases a <;> cases hp
            · cases hp
          · cases hp; rfl
      subst this; exact hi

omit [IsStrictOrderedRing K] in
/-- C122: the buffer always holds the newest points, with the initial one, newest first, as many as its length
allows. -/
theorem C122_contents (c : Cfg K) (n : Net K m) (tstart step : K) (x0 : Fin m → K) (l : List (Ctl K)) :
    (run c n x0 l (start c tstart step x0)).st.buf =
      (history tstart x0 (run c n x0 l (start c tstart step x0)).st.points).take c.len :=
  (inv_run l (inv_start c tstart step x0)).buf

omit [IsStrictOrderedRing K] in
/-- C122: with step control, no pass is stopped by a formula that misses something in the history: whatever the
steps, the formula of every pass can be evaluated, and a prediction is available as soon as it is asked for. -/
theorem C122_formula_available (mt : Meth) (len : Nat) (hl : bufferLen mt true = .ok len) (c : Cfg K)
    (hm : c.meth = mt) (hc : c.control = true) (hn : c.len = len) (n : Net K m) (tstart step : K) (x0 : Fin m → K)
    (l : List (Ctl K)) (s : St K m) (hs : (run c n x0 l (start c tstart step x0)).st = s) (h : K) :
    ∃ f, formula c.meth c.control s.iter s.buf h = .ok f ∧
      (firstIters mt ≤ s.iter → startPred mt ≤ s.iter → f.pred.isSome = true) := by
  have hi : Inv c tstart x0 s := hs ▸ inv_run l (inv_start c tstart step x0)
  have hlen : s.buf.length = min len (s.iter + 1) := by
    rw [hi.buf, List.length_take, hn, history, List.length_append, List.length_reverse, hi.iter, List.length_singleton]
  have hhead : 0 < s.iter → 0 < len → ∃ e r, s.buf = e :: r ∧ e.dx.isSome = true := by
    intro h0 h1
    rw [hi.iter] at h0
    rw [hi.buf, hn, history]
    rcases hp : s.points.reverse with _ | ⟨e, r⟩
    · rw [List.reverse_eq_nil_iff] at hp; rw [hp] at h0; simp at h0
    · obtain ⟨k, rfl⟩ : ∃ k, len = k + 1 := ⟨len - 1, by omega⟩
      refine ⟨e, (r ++ [(⟨tstart, x0, none⟩ : Entry K m)]).take k, by simp, hi.dx e ?_⟩
      rw [← List.mem_reverse, hp]; simp
  subst hm
  rw [hc]
  cases hme : c.meth with
  | euler =>
    rw [hme] at hl
    have hl2 : len = 2 := by simpa [bufferLen, Meth.required] using hl.symm
    have hf : firstIters .euler = 0 := rfl
    have hp : startPred .euler = 1 := rfl
    unfold formula
    rw [hf, hp, if_neg (by omega)]
    simp only [Meth.df, eulerDf]
    rw [if_neg (by omega)]
    refine ⟨_, rfl, fun _ hk => ?_⟩
    have : s.buf.length > 1 := by omega
    simp [this, hk]
  | trap =>
    rw [hme] at hl
    have hl2 : len = 3 := by simpa [bufferLen, Meth.required] using hl.symm
    have hf : firstIters .trap = 1 := rfl
    have hp : startPred .trap = 2 := rfl
    unfold formula
    rw [hf, hp]
    by_cases h0 : s.iter < 1
    · rw [if_pos h0]
      rcases hb : s.buf with _ | ⟨e, r⟩
      · rw [hb] at hlen; simp only [List.length_nil] at hlen; omega
      · exact ⟨_, rfl, fun h1 => by omega⟩
    · rw [if_neg h0]
      obtain ⟨e, r, hb, he⟩ := hhead (by omega) (by omega)
      rw [hb] at hlen
      simp only [Meth.df]
      rw [hb]
      simp only [trapDf]
      have he' : e.dx.isNone = false := by cases hd : e.dx <;> simp_all
      rw [he']
      by_cases hp2 : s.iter ≥ 2
      · have h2 : ¬ (e :: r).length < 2 := by omega
        have h3 : ¬ (e :: r).length < 3 := by omega
        simp only [h2, h3, Bool.false_eq_true, if_false, hp2, decide_true, decide_false, Bool.and_false, Bool.and_true]
        exact ⟨_, rfl, fun _ _ => rfl⟩
      · simp only [hp2, decide_false, Bool.and_false, Bool.false_and, Bool.false_eq_true, if_false]
        exact ⟨_, rfl, fun _ h2 => h2.elim⟩
  | gear o =>
    rw [hme] at hl
    have hl2 : len = o + 1 := by simpa [bufferLen, Meth.required] using hl.symm
    have hf : firstIters (.gear o) = o := by
      simp only [firstIters, Meth.required]; split <;> omega
    have hp : startPred (.gear o) = o := by simp [startPred, Meth.required]
    unfold formula
    rw [hf, hp]
    by_cases h0 : s.iter < o
    · rw [if_pos h0]
      rcases hb : s.buf with _ | ⟨e, r⟩
      · rw [hb] at hlen; simp only [List.length_nil] at hlen; omega
      · exact ⟨_, rfl, fun h1 => by omega⟩
    · rw [if_neg h0]
      simp only [Meth.df, gearDf]
      rw [if_neg (by omega)]
      refine ⟨_, rfl, fun h1 _ => ?_⟩
      have : s.iter ≥ o := h1
      simp [this]

/-- C122: how many points the buffer holds; once the formula of the method is in use, these are the newest `n + 1`
for Gear of order `n`, at least two for the trapezoidal rule, and three when its prediction is in use. -/
theorem C122_length (mt : Meth) (len : Nat) (hl : bufferLen mt true = .ok len) (c : Cfg K) (hn : c.len = len)
    (n : Net K m) (tstart step : K) (x0 : Fin m → K) (l : List (Ctl K)) (s : St K m)
    (hs : (run c n x0 l (start c tstart step x0)).st = s) :
    s.buf.length = min len (s.iter + 1) ∧
    match mt with
    | .euler => 1 ≤ s.buf.length ∧ (startPred mt ≤ s.iter → s.buf.length = 2)
    | .trap => (firstIters mt ≤ s.iter → 2 ≤ s.buf.length) ∧ (startPred mt ≤ s.iter → s.buf.length = 3)
    | .gear k => firstIters mt ≤ s.iter → s.buf.length = k + 1 := by
  have hi : Inv c tstart x0 s := hs ▸ inv_run l (inv_start c tstart step x0)
  have hlen : s.buf.length = min len (s.iter + 1) := by
    rw [hi.buf, List.length_take, hn, history, List.length_append, List.length_reverse, hi.iter, List.length_singleton]
  refine ⟨hlen, ?_⟩
  cases mt with
  | euler =>
    have h2 : len = 2 := by simpa [bufferLen, Meth.required] using hl.symm
    have h3 : startPred .euler = 1 := rfl
    simp only [h3]
    omega
  | trap =>
    have h2 : len = 3 := by simpa [bufferLen, Meth.required] using hl.symm
    have h3 : startPred .trap = 2 := rfl
    have h4 : firstIters .trap = 1 := rfl
    simp only [h3, h4]
    omega
  | gear k =>
    have h2 : len = k + 1 := by
      simp only [bufferLen, Meth.required, if_true, List.foldl_cons, List.foldl_nil, Except.ok.injEq] at hl
      omega
    have h4 : firstIters (.gear k) = k := by
      simp only [firstIters, Meth.required]
      split <;> omega
    simp only [h4]
    omega

/-- C122: and so many are needed: on a shorter history the formulas raise. -/
theorem C122_needed (buf : List (Entry K m)) (step : K) (p : Bool) :
    (∀ k, buf.length < k + 1 ↔ (Meth.df (.gear k) buf step p).isOk = false) ∧
    (buf.length = 0 ↔ (Meth.df .euler buf step p).isOk = false) := by
  refine ⟨fun k => ?_, ?_⟩
  · simp only [Meth.df, gearDf]
    split <;> simp_all [Except.isOk, Except.toBool]
  · simp only [Meth.df, eulerDf]
    split <;> simp_all [Except.isOk, Except.toBool]

/-- C122: without step control only the trapezoidal formula gets a buffer; the others stop with a `TypeError`
(Python 3 cannot compare a number with `None`). -/
theorem C122_fixed_step_refuted :
    bufferLen .trap false = .ok 1 ∧ bufferLen .euler false = .error .type ∧
    ∀ n, bufferLen (.gear n) false = .error .type := ⟨rfl, rfl, fun _ => rfl⟩

/-- the lengths with step control -/
example : bufferLen .euler true = .ok 2 ∧ bufferLen .trap true = .ok 3 ∧ bufferLen (.gear 4) true = .ok 5 :=
  ⟨rfl, rfl, rfl⟩

example : (firstIters .euler, firstIters .trap, firstIters (.gear 4)) = (0, 1, 4) ∧
    (startPred .euler, startPred .trap, startPred (.gear 4)) = (1, 2, 4) := ⟨rfl, rfl⟩

/-! ### C121: the points -/

/-- the equations of a linear circuit at a point: currents and branch equations, with the conductance Gmin at every
node -/
def Holds (n : Net K m) (e : Entry K m) : Prop :=
  ∃ dx, e.dx = some dx ∧ n.mna *ᵥ e.x + gminMat n.nn n.gmin *ᵥ e.x + n.D *ᵥ dx + n.N + n.Tt e.t = 0

theorem newton_linear {p : Newton.Problem K m} (hn : p.nonlinear = false) (hl : p.locked = []) {o : OOpts K}
    (ho : Plain o) {x : Fin m → K} (h : FromNewton o p x) : p.mna *ᵥ x + p.T = 0 := by
  obtain ⟨x0, r, h1, -, rfl⟩ := h
  obtain ⟨-, -, -, x', h2, h3, h4⟩ := Newton.C78_report_exact o.newton o.tol p o.maxit (some x0) r h1
  have htd : Newton.getTd o.newton r.dx p.locked (r.iteration : Int) = 1 := by
    unfold Newton.getTd Newton.tdFirst
    simp [hl, ho.damp]
  simp only [hn, Bool.false_eq_true, if_false, add_zero] at h2 h3
  rw [h4, htd, one_smul, mulVec_add, h3, h2]
  abel

/-- C121: one pass. The point a pass finds, with the derivative stored with it, satisfies the circuit equations at
its time, whenever the standard method solved the pass. -/
theorem C121_step {o : OOpts K} (ho : Plain o) (n : Net K m) (hl : n.nonlinear = false) (hk : n.locked = [])
    (f : Formula K m) (t : K) (x1 : Fin m → K) (h : FromNewton o (problem (n.at f t) n.gmin .full) x1) :
    Holds n ⟨t, x1, some (f.c1 • x1 + f.c0)⟩ := by
  have := newton_linear (p := problem (n.at f t) n.gmin .full) hl hk ho h
  refine ⟨_, rfl, ?_⟩
  have e : (problem (n.at f t) n.gmin .full).mna *ᵥ x1 + (problem (n.at f t) n.gmin .full).T =
      n.mna *ᵥ x1 + gminMat n.nn n.gmin *ᵥ x1 + n.D *ᵥ (f.c1 • x1 + f.c0) + n.N + n.Tt t := by
    simp only [problem, Net.at, add_mulVec, smul_mulVec, mulVec_add, mulVec_smul]
    abel
  rw [← e]; exact this

/-- C121: every point of a transient analysis of a linear circuit, for any method and any choice of steps, with
Gmin and source stepping switched off. Missing: the default options, where a pass that is singular is solved
with other conductances or sources (see the refutation). -/
theorem C121_points_partial (c : Cfg K) (ho : Plain c.o) (hg : c.o.meth.gmin = false) (hs : c.o.meth.src = false)
    (n : Net K m) (hl : n.nonlinear = false) (hk : n.locked = []) (tstart step : K) (x0 : Fin m → K)
    (l : List (Ctl K)) :
    ∀ e ∈ (run c n x0 l (start c tstart step x0)).st.points, Holds n e := by
  have hstd : StdOnly (setNext c.o.meth init) := stdOnly_next hg hs ⟨rfl, rfl, by rintro y ⟨⟩⟩
  have key : ∀ (l : List (Ctl K)) (s : St K m), (∀ e ∈ s.points, Holds n e) →
      ∀ e ∈ (run c n x0 l s).st.points, Holds n e := by
    intro l
    induction l with
    | nil => intro s h; exact h
    | cons a r ih =>
      intro s h
      unfold run
      rcases hp : pass c n x0 s a with s' | s' | s'
      · refine ih s' ?_
        rcases pass_cases hp with ⟨st, rfl⟩ | ⟨f, x1, -, hx, st, rfl⟩
        · exact h
        · intro e he
          rcases List.mem_append.mp he with he | he
          · exact h e he
          · rw [List.mem_singleton.mp he]
            exact C121_step ho n hl hk f _ x1 (loopX_std c.o hg hs _ _ _ _ _ _ hstd hx)
      all_goals
        have : s' = s := by
          unfold pass at hp
          split at hp
          · cases hp <;> rfl
          · split at hp
            · cases a <;> cases hp
            · split at hp
              · cases a <;> cases hp
              · cases hp <;> rfl
            · cases hp <;> rfl
        subst this; exact h
  exact key l _ (by simp [start])

/-- C121: with the default options the same holds as long as the matrix of no pass is singular: here for a single
pass. -/
theorem C121_regular_step {o : OOpts K} (ho : Plain o) (hm : o.meth.std = true) (n : Net K m)
    (hl : n.nonlinear = false) (hk : n.locked = []) (f : Formula K m) (t : K) (xs x1 : Fin m → K)
    (hd : (n.mna + f.c1 • n.D + gminMat n.nn n.gmin).det ≠ 0)
    (hx : dcSolve o (n.at f t) n.gmin (some xs) = .solved x1) :
    Holds n ⟨t, x1, some (f.c1 • x1 + f.c0)⟩ := by
  obtain ⟨z, h1, h2⟩ := dcSolve_regular (c := n.at f t) ho hm ⟨hl, hk⟩ n.gmin hd (some xs) 63
  rw [h1] at hx
  simp only [Out.solved.injEq] at hx
  subst hx
  refine ⟨_, rfl, ?_⟩
  rw [← h2]
  simp only [Net.at, add_mulVec, smul_mulVec, mulVec_add, mulVec_smul]
  abel

/-! ### C124: energy -/

/-- twice the stored energy: `S` turns the rows of the branch equations round, so that inductances count positive -/
def energy (S : Matrix (Fin m) (Fin m) K) (n : Net K m) (x : Fin m → K) : K := x ⬝ᵥ ((S * n.D) *ᵥ x)

/-- a circuit without sources whose static part takes up power and whose dynamic part stores energy -/
structure PassiveNet (S : Matrix (Fin m) (Fin m) K) (n : Net K m) : Prop where
  linear : n.nonlinear = false
  locked : n.locked = []
  N : n.N = 0
  Tt : ∀ t, n.Tt t = 0
  sym : (S * n.D)ᵀ = S * n.D
  store : ∀ v, 0 ≤ v ⬝ᵥ ((S * n.D) *ᵥ v)
  static : ∀ v, 0 ≤ v ⬝ᵥ ((S * n.mna) *ᵥ v)
  /-- the equations of the nodes are not turned round -/
  nodes : S * gminMat n.nn 1 = gminMat n.nn 1
  regular : S.det ≠ 0
  gmin : 0 ≤ n.gmin

omit [LinearOrder K] [IsStrictOrderedRing K] in
theorem gminMat_smul (nn : Nat) (g : K) : gminMat (m := m) nn g = g • gminMat nn 1 := by
  ext i j
  by_cases e : i = j
  · subst e
    by_cases hi : i.val < nn <;> simp [gminMat, hi]
  · simp [gminMat, Matrix.diagonal_apply_ne _ e]

theorem gmin_form (nn : Nat) (v : Fin m → K) : 0 ≤ v ⬝ᵥ (gminMat nn 1 *ᵥ v) := by
  simp only [gminMat, Matrix.mulVec_diagonal, dotProduct]
  refine Finset.sum_nonneg fun i _ => ?_
  by_cases hi : i.val < nn
  · rw [if_pos hi, one_mul]; exact mul_self_nonneg _
  · rw [if_neg hi]; simp

theorem PassiveNet.load {S : Matrix (Fin m) (Fin m) K} {n : Net K m} (hp : PassiveNet S n) {g : K} (hg : 0 ≤ g)
    (v : Fin m → K) : 0 ≤ v ⬝ᵥ ((S * (n.mna + gminMat n.nn g)) *ᵥ v) := by
  rw [gminMat_smul, mul_add, Matrix.mul_smul, hp.nodes, add_mulVec, dotProduct_add, smul_mulVec, dotProduct_smul,
    smul_eq_mul]
  exact add_nonneg (hp.static v) (mul_nonneg hg (gmin_form _ _))

omit [LinearOrder K] [IsStrictOrderedRing K] in
theorem dot_symm {A : Matrix (Fin m) (Fin m) K} (h : Aᵀ = A) (u v : Fin m → K) : u ⬝ᵥ (A *ᵥ v) = v ⬝ᵥ (A *ᵥ u) := by
  rw [dotProduct_mulVec, ← mulVec_transpose, h, dotProduct_comm]

/-- one step of implicit Euler -/
theorem euler_energy {S : Matrix (Fin m) (Fin m) K} {n : Net K m} (hp : PassiveNet S n) {g : K} (hg : 0 ≤ g) {h : K}
    (hh : 0 < h) {x0 x1 : Fin m → K}
    (e : n.mna *ᵥ x1 + gminMat n.nn g *ᵥ x1 + n.D *ᵥ ((1 / h) • x1 + fun i => -1 / h * x0 i) = 0) :
    energy S n x1 ≤ energy S n x0 := by
  have e2 : (n.mna + gminMat n.nn g) *ᵥ x1 + (1 / h) • (n.D *ᵥ (x1 - x0)) = 0 := by
    rw [← e, add_mulVec, ← mulVec_smul]
    congr 2
    funext i
    simp only [Pi.smul_apply, Pi.sub_apply, Pi.add_apply, smul_eq_mul]
    ring
  have e3 := congrArg (fun w => x1 ⬝ᵥ (S *ᵥ w)) e2
  simp only [mulVec_add, mulVec_smul, mulVec_mulVec, dotProduct_add, dotProduct_smul, mulVec_zero, dotProduct_zero,
    smul_eq_mul] at e3
  have h1 := hp.load hg x1
  have h2 : x1 ⬝ᵥ ((S * n.D) *ᵥ (x1 - x0)) ≤ 0 := by
    have : 1 / h * (x1 ⬝ᵥ ((S * n.D) *ᵥ (x1 - x0))) ≤ 0 := by linarith
    by_contra hc
    have : 0 < 1 / h * (x1 ⬝ᵥ ((S * n.D) *ᵥ (x1 - x0))) := mul_pos (by positivity) (not_le.mp hc)
    linarith
  have h3 := hp.store (x1 - x0)
  simp only [mulVec_sub, dotProduct_sub, sub_dotProduct] at h2 h3
  have h4 := dot_symm hp.sym x1 x0
  unfold energy
  linarith

/-- one step of the trapezoidal rule -/
theorem trap_energy {S : Matrix (Fin m) (Fin m) K} {n : Net K m} (hp : PassiveNet S n) {g : K} (hg : 0 ≤ g) {h : K}
    (hh : 0 < h) {x0 x1 d0 : Fin m → K}
    (e0 : n.mna *ᵥ x0 + gminMat n.nn g *ᵥ x0 + n.D *ᵥ d0 = 0)
    (e : n.mna *ᵥ x1 + gminMat n.nn g *ᵥ x1 + n.D *ᵥ ((2 / h) • x1 + fun i => -1 * (2 / h * x0 i + d0 i)) = 0) :
    energy S n x1 ≤ energy S n x0 := by
  have e2 : (n.mna + gminMat n.nn g) *ᵥ (x1 + x0) + (2 / h) • (n.D *ᵥ (x1 - x0)) = 0 := by
    have hd : ((2 / h) • x1 + fun i => -1 * (2 / h * x0 i + d0 i)) = (2 / h) • (x1 - x0) - d0 := by
      funext i
      simp only [Pi.smul_apply, Pi.sub_apply, Pi.add_apply, smul_eq_mul]
      ring
    rw [hd, mulVec_sub, mulVec_smul] at e
    have := congrArg₂ (· + ·) e e0
    simp only [add_zero] at this
    rw [← this, add_mulVec, mulVec_add, mulVec_add]
    abel
  have e3 := congrArg (fun w => (x1 + x0) ⬝ᵥ (S *ᵥ w)) e2
  simp only [mulVec_add, mulVec_smul, mulVec_mulVec, mulVec_zero, dotProduct_zero] at e3
  rw [← mulVec_add, dotProduct_add, dotProduct_smul, smul_eq_mul] at e3
  have h1 := hp.load hg (x1 + x0)
  have h2 : (x1 + x0) ⬝ᵥ ((S * n.D) *ᵥ (x1 - x0)) ≤ 0 := by
    by_contra hc
    have : 0 < 2 / h * ((x1 + x0) ⬝ᵥ ((S * n.D) *ᵥ (x1 - x0))) := mul_pos (by positivity) (not_le.mp hc)
    linarith
  simp only [mulVec_sub, dotProduct_sub, add_dotProduct] at h2
  have h4 := dot_symm hp.sym x1 x0
  unfold energy
  linarith

/-- the step a decision leads to -/
def Ctl.step : Ctl K → K
  | .redo h => h
  | .keep h => h

omit [IsStrictOrderedRing K] in
theorem pass_step {c : Cfg K} {n : Net K m} {x0 : Fin m → K} {s s' : St K m} {a : Ctl K}
    (h : pass c n x0 s a = .running s') : s'.tstep = a.step := by
  unfold pass at h
  split at h
  · cases h
  · split at h
    · cases a <;> (cases h; rfl)
    · split at h
      · cases a <;> (cases h; rfl)
      · cases h
    · cases h

/-- the equations of the circuit loaded with the conductance `g` at every node -/
def HoldsG (n : Net K m) (g : K) (e : Entry K m) : Prop :=
  ∃ dx, e.dx = some dx ∧ n.mna *ᵥ e.x + gminMat n.nn g *ᵥ e.x + n.D *ᵥ dx + n.N + n.Tt e.t = 0

/-- a symmetric form that is never negative vanishes at `v` only if it vanishes with everything -/
theorem psd_zero {A : Matrix (Fin m) (Fin m) K} (hs : Aᵀ = A) (hA : ∀ v, 0 ≤ v ⬝ᵥ (A *ᵥ v)) {v : Fin m → K}
    (hv : v ⬝ᵥ (A *ᵥ v) = 0) : A *ᵥ v = 0 := by
  have key : ∀ u, u ⬝ᵥ (A *ᵥ v) = 0 := by
    intro u
    set b := u ⬝ᵥ (A *ᵥ v) with hb
    set q := u ⬝ᵥ (A *ᵥ u) with hq
    have hq0 : 0 ≤ q := hA u
    have h := hA (v + (-(b / (q + 1))) • u)
    have hvu : v ⬝ᵥ (A *ᵥ u) = b := dot_symm hs v u
    simp only [mulVec_add, mulVec_smul, dotProduct_add, add_dotProduct, dotProduct_smul, smul_dotProduct, smul_eq_mul,
      hv, hvu, ← hb, ← hq] at h
    have hq1 : 0 < q + 1 := by linarith
    have e : 0 + -(b / (q + 1)) * b + -(b / (q + 1)) * (b + -(b / (q + 1)) * q) =
        -(b * b * (q + 2)) / (q + 1) ^ 2 := by
      field_simp
      ring
    have h' : 0 ≤ -(b * b * (q + 2)) / (q + 1) ^ 2 := by
      rw [← e]
      linarith
    have h2 : 0 ≤ -(b * b * (q + 2)) := by
      by_contra hc
      have := div_neg_of_neg_of_pos (not_le.mp hc) (by positivity : 0 < (q + 1) ^ 2)
      linarith
    have h3 : b * b ≤ 0 := by nlinarith [mul_self_nonneg b]
    exact mul_self_eq_zero.mp (le_antisymm h3 (mul_self_nonneg b))
  funext i
  have := key (Pi.single i 1)
  simpa using this

omit [LinearOrder K] [IsStrictOrderedRing K] in
theorem inj_of_det {S : Matrix (Fin m) (Fin m) K} (h : S.det ≠ 0) {w : Fin m → K} (hw : S *ᵥ w = 0) : w = 0 := by
  by_contra hne
  exact h (Matrix.exists_mulVec_eq_zero_iff.mp ⟨w, hne, hw⟩)

/-- when the matrix of a pass is singular: this does not depend on the step, nor on how large Gmin is -/
theorem singular_iff {S : Matrix (Fin m) (Fin m) K} {n : Net K m} (hp : PassiveNet S n) {c1 g : K} (hc : 0 < c1)
    (hg : 0 ≤ g) :
    (n.mna + c1 • n.D + gminMat n.nn g).det = 0 ↔
      ∃ v, v ≠ 0 ∧ n.mna *ᵥ v = 0 ∧ n.D *ᵥ v = 0 ∧ (0 < g → gminMat n.nn 1 *ᵥ v = 0) := by
  rw [← Matrix.exists_mulVec_eq_zero_iff]
  constructor
  · rintro ⟨v, hv, h⟩
    refine ⟨v, hv, ?_⟩
    have h1 := congrArg (fun w => v ⬝ᵥ (S *ᵥ w)) h
    rw [gminMat_smul] at h h1
    simp only [mulVec_zero, dotProduct_zero] at h1
    rw [mulVec_mulVec, mul_add, mul_add, Matrix.mul_smul, Matrix.mul_smul, hp.nodes, add_mulVec, add_mulVec,
      smul_mulVec, smul_mulVec, dotProduct_add, dotProduct_add, dotProduct_smul, dotProduct_smul, smul_eq_mul,
      smul_eq_mul] at h1
    have a1 := hp.static v
    have a2 := mul_nonneg hc.le (hp.store v)
    have a3 := mul_nonneg hg (gmin_form n.nn v)
    have hD : n.D *ᵥ v = 0 := by
      refine inj_of_det hp.regular ?_
      rw [mulVec_mulVec]
      refine psd_zero hp.sym hp.store ?_
      have : c1 * (v ⬝ᵥ ((S * n.D) *ᵥ v)) = 0 := by linarith
      rcases mul_eq_zero.mp this with h' | h'
      · exact absurd h' hc.ne'
      · exact h'
    have hG : 0 < g → gminMat n.nn 1 *ᵥ v = 0 := by
      intro hg'
      refine psd_zero (by simp [gminMat]) (gmin_form _) ?_
      have : g * (v ⬝ᵥ (gminMat n.nn 1 *ᵥ v)) = 0 := by linarith
      rcases mul_eq_zero.mp this with h' | h'
      · exact absurd h' hg'.ne'
      · exact h'
    refine ⟨?_, hD, hG⟩
    rw [add_mulVec, add_mulVec, smul_mulVec, smul_mulVec, hD, smul_zero, add_zero] at h
    rcases hg.eq_or_lt with h0 | h0
    · rwa [← h0, zero_smul, add_zero] at h
    · rwa [hG h0, smul_zero, add_zero] at h
  · rintro ⟨v, hv, h1, h2, h3⟩
    refine ⟨v, hv, ?_⟩
    rw [gminMat_smul, add_mulVec, add_mulVec, smul_mulVec, smul_mulVec, h1, h2, smul_zero, add_zero, zero_add]
    rcases hg.eq_or_lt with h0 | h0
    · rw [← h0, zero_smul]
    · rw [h3 h0, smul_zero]

/-- the system `dc_solve` ends with, if the systems `r` says are regular converge and the others do not -/
def lastSys (o : Homotopy.Opts) (r : Sys → Bool) : Nat → State → Option Sys
  | 0, _ => none
  | k + 1, s => match choose o s with
    | .error _ => none
    | .ok y => match after o { s with sys := some y } (r y) with
      | .next s' => lastSys o r k s'
      | .success => some y
      | .failure => none

theorem loopX_last {o : OOpts K} (ho : Plain o) {c : Circ K m} (hc : Linear c) (g : K) {r : Sys → Bool}
    (hr : ∀ y, r y = true ↔ (problem c g y).mna.det ≠ 0) (k : Nat) (s : State) (x z : Fin m → K)
    (hz : loopX o c g k s x = .solved z) :
    ∃ y, lastSys o.meth r k s = some y ∧ (problem c g y).mna *ᵥ z + (problem c g y).T = 0 := by
  induction k generalizing s x with
  | zero => cases hz
  | succ k ih =>
    unfold loopX at hz
    unfold lastSys
    rcases hch : choose o.meth s with e | y
    · rw [hch] at hz; cases hz
    · rw [hch] at hz
      simp only at hz ⊢
      by_cases hd : (problem c g y).mna.det = 0
      · have hry : r y = false := by
          rw [Bool.eq_false_iff]
          exact fun h => (hr y).mp h hd
        rw [(attempt_linear ho hc g y x).1 hd] at hz
        rw [hry]
        simp only at hz ⊢
        rcases haf : after o.meth { s with sys := some y } false with s' | _ | _
        · rw [haf] at hz
          exact ih s' x hz
        · exfalso
          unfold after at haf
          simp only [Bool.not_false, if_true] at haf
          split at haf <;> cases haf
        · rw [haf] at hz; cases hz
      · have hry : r y = true := (hr y).mpr hd
        obtain ⟨w, h1, h2⟩ := (attempt_linear ho hc g y x).2 hd
        rw [h1] at hz
        rw [hry]
        simp only at hz ⊢
        rcases haf : after o.meth { s with sys := some y } true with s' | _ | _
        · rw [haf] at hz
          exact ih s' w hz
        · rw [haf] at hz
          cases hz
          exact ⟨y, rfl, h2⟩
        · rw [haf] at hz; cases hz

/-- the conductance at every node in a system of `dc_solve` -/
def loadOf (gmin : K) : Sys → K
  | .full => gmin
  | .gmin i => 1 / 10 ^ (i + 1)
  | .src _ => gmin

open Classical in
/-- all points of an analysis are solutions of the circuit with one and the same conductance at every node -/
theorem one_load {o : OOpts K} (ho : Plain o) {S : Matrix (Fin m) (Fin m) K} {n : Net K m} (hp : PassiveNet S n) :
    ∃ g, 0 ≤ g ∧ ∀ (f : Formula K m) (t : K) (xs x1 : Fin m → K), 0 < f.c1 →
      dcSolve o (n.at f t) n.gmin (some xs) = .solved x1 → HoldsG n g ⟨t, x1, some (f.c1 • x1 + f.c0)⟩ := by
  have hload : ∀ y, 0 ≤ loadOf n.gmin y := by
    intro y
    cases y
    · exact hp.gmin
    · simp only [loadOf]; positivity
    · exact hp.gmin
  let r : Sys → Bool := fun y => decide ((n.mna + (1 : K) • n.D + gminMat n.nn (loadOf n.gmin y)).det ≠ 0)
  have hmat : ∀ (f : Formula K m) (t : K) y,
      (problem (n.at f t) n.gmin y).mna = n.mna + f.c1 • n.D + gminMat n.nn (loadOf n.gmin y) := by
    intro f t y
    cases y
    · rfl
    · exact add_comm _ _
    · rfl
  refine ⟨loadOf n.gmin ((lastSys o.meth r 64 (setNext o.meth init)).getD .full), hload _, ?_⟩
  intro f t xs x1 hf hx
  obtain ⟨y, h1, h2⟩ := loopX_last ho (c := n.at f t) ⟨hp.linear, hp.locked⟩ n.gmin (r := r) (fun y => by
    rw [hmat, decide_eq_true_iff, not_iff_not, singular_iff hp one_pos (hload y), singular_iff hp hf (hload y)])
    64 _ _ x1 hx
  rw [h1, Option.getD_some]
  refine ⟨_, rfl, ?_⟩
  rw [hmat] at h2
  have hT : (problem (n.at f t) n.gmin y).T = n.D *ᵥ f.c0 := by
    cases y <;> simp only [problem, Net.at, hp.N, hp.Tt, add_zero, zero_add]
    funext k
    simp
  rw [hT] at h2
  rw [← h2, hp.N, hp.Tt]
  simp only [add_mulVec, smul_mulVec, mulVec_add, mulVec_smul]
  abel

/-- the coefficient of the unknown is positive -/
theorem formula_pos {mt : Meth} (hm : mt = .euler ∨ mt = .trap) {ctl : Bool} {iter : Nat} {buf : List (Entry K m)}
    {step : K} (hs : 0 < step) {f : Formula K m} (h : formula mt ctl iter buf step = .ok f) : 0 < f.c1 := by
  have he : ∀ p (b : List (Entry K m)), eulerDf b step p = .ok f → 0 < f.c1 := by
    intro p b h'
    unfold eulerDf at h'
    split at h'
    · cases h'
    · cases h'
      simp only
      positivity
  have ht : ∀ p (b : List (Entry K m)), trapDf b step p = .ok f → 0 < f.c1 := by
    intro p b h'
    unfold trapDf at h'
    split at h'
    · cases h'
    · split at h'
      · cases h'
      · split at h'
        · cases h'
        · split at h'
          · cases h'
          · cases h'
            simp only
            positivity
  unfold formula at h
  split at h
  · split at h
    · cases h
    · exact he _ _ h
  · rcases hm with rfl | rfl
    · exact he _ _ h
    · exact ht _ _ h

/-- C124: in a transient analysis of a passive circuit without sources (resistors, capacitors, inductors), with
implicit Euler or the trapezoidal rule and any positive steps, the stored energy never increases from one point to
a later one, starting with the initial point. Any of the methods of `dc_solve` may be enabled: the points may be
those of Gmin stepping. -/
theorem C124_energy (c : Cfg K) (hm : c.meth = .euler ∨ c.meth = .trap) (hlen : 0 < c.len) (ho : Plain c.o)
    (S : Matrix (Fin m) (Fin m) K) (n : Net K m)
    (hp : PassiveNet S n) (tstart step : K) (hst : 0 < step) (x0 : Fin m → K) (l : List (Ctl K))
    (hl : ∀ a ∈ l, 0 < a.step) :
    (history tstart x0 (run c n x0 l (start c tstart step x0)).st.points).Pairwise
      (fun later earlier => energy S n later.x ≤ energy S n earlier.x) := by
  obtain ⟨g, hg, hload⟩ := one_load ho hp
  have key : ∀ (l : List (Ctl K)) (s : St K m), (∀ a ∈ l, 0 < a.step) → Inv c tstart x0 s → 0 < s.tstep →
      (∀ e ∈ s.points, HoldsG n g e) →
      (history tstart x0 s.points).Pairwise (fun later earlier => energy S n later.x ≤ energy S n earlier.x) →
      (history tstart x0 (run c n x0 l s).st.points).Pairwise
        (fun later earlier => energy S n later.x ≤ energy S n earlier.x) := by
    intro l
    induction l with
    | nil => intro s _ _ _ _ h; exact h
    | cons a r ih =>
      intro s ha hi hpos hh h
      unfold run
      rcases hpass : pass c n x0 s a with s' | s' | s'
      · have hpos' : 0 < s'.tstep := by rw [pass_step hpass]; exact ha a (List.mem_cons_self ..)
        have hi' := inv_pass hi hpass
        have har : ∀ a ∈ r, 0 < a.step := fun b hb => ha b (List.mem_cons_of_mem _ hb)
        rcases pass_cases hpass with ⟨st, rfl⟩ | ⟨f, x1, hf, hx, st, rfl⟩
        · exact ih _ har hi' hpos' hh h
        · have hc1 : 0 < f.c1 := formula_pos hm hpos hf
          have hH : HoldsG n g ⟨s.time + s.tstep, x1, some (f.c1 • x1 + f.c0)⟩ := hload f _ _ x1 hc1 hx
          refine ih _ har hi' hpos' ?_ ?_
          · intro e he
            rcases List.mem_append.mp he with he | he
            · exact hh e he
            · rw [List.mem_singleton.mp he]; exact hH
          · obtain ⟨k, hk⟩ : ∃ k, c.len = k + 1 := ⟨c.len - 1, by omega⟩
            -- the newest entry of the history
            obtain ⟨e, tl, hhist⟩ : ∃ e tl, history tstart x0 s.points = e :: tl := by
              unfold history
              rcases s.points.reverse with _ | ⟨e, r⟩
              · exact ⟨_, _, rfl⟩
              · exact ⟨_, _, rfl⟩
            have hbuf : s.buf = e :: tl.take k := by rw [hi.buf, hk, hhist, List.take_succ_cons]
            have hstep : energy S n x1 ≤ energy S n e.x := by
              obtain ⟨dx, hdx, heq⟩ := hH
              simp only [Option.some.injEq] at hdx
              subst hdx
              simp only [hp.N, hp.Tt, add_zero] at heq
              have euler : ∀ p (b : List (Entry K m)), eulerDf (e :: b) s.tstep p = .ok f →
                  energy S n x1 ≤ energy S n e.x := by
                intro p b h'
                simp only [eulerDf, List.length_cons, Nat.add_eq_zero_iff, one_ne_zero, and_false, if_false,
                  Except.ok.injEq] at h'
                subst h'
                refine euler_energy hp hg hpos ?_
                rw [← heq]
                rfl
              unfold formula at hf
              rw [hbuf] at hf
              split at hf
              · exact euler _ _ hf
              · rename_i hfi
                rcases hm with hm | hm
                · rw [hm] at hf
                  exact euler _ _ hf
                · rw [hm] at hf hfi
                  simp only [Meth.df, trapDf] at hf
                  split at hf
                  · cases hf
                  · rename_i hd
                    split at hf
                    · cases hf
                    · split at hf
                      · cases hf
                      · cases hf
                        have hmem : e ∈ s.points := by
                          have h1 : 1 ≤ s.points.length := by
                            have : firstIters .trap = 1 := rfl
                            rw [this] at hfi
                            rw [← hi.iter]; omega
                          unfold history at hhist
                          rcases hr : s.points.reverse with _ | ⟨e', r'⟩
                          · rw [List.reverse_eq_nil_iff] at hr; rw [hr] at h1; simp at h1
                          · rw [hr] at hhist
                            simp only [List.cons_append, List.cons.injEq] at hhist
                            rw [← List.mem_reverse, hr, hhist.1]; simp
                        obtain ⟨d0, hd0, heq0⟩ := hh e hmem
                        simp only [hp.N, hp.Tt, add_zero] at heq0
                        refine trap_energy hp hg hpos heq0 ?_
                        rw [← heq]
                        congr 4
                        funext i
                        simp [DF.trap, xAt, dxAt, hd0]
            simp only [history, List.reverse_append, List.reverse_singleton, List.cons_append, List.nil_append]
            rw [List.pairwise_cons]
            refine ⟨fun b hb => ?_, h⟩
            have hb' : b ∈ history tstart x0 s.points := hb
            rw [hhist] at hb' h
            rcases List.mem_cons.mp hb' with rfl | hb'
            · exact hstep
            · exact hstep.trans ((List.pairwise_cons.mp h).1 b hb')
      all_goals
        have : s' = s := by
          unfold pass at hpass
          split at hpass
          · cases hpass <;> rfl
          · split at hpass
            · cases a <;> cases hpass
            · split at hpass
              · cases a <;> cases hpass
              · cases hpass <;> rfl
            · cases hpass <;> rfl
        subst this; exact h
  refine key l _ hl (inv_start c tstart step x0) hst (by simp [start]) ?_
  simp [start, history]

/-! ### C123: the error allowed in a step -/

/-- what the options say about the error of variable `i` with value `v`: voltages come first -/
noncomputable def tolerance (o : ErrOpts) (nn i : Nat) (v : ℝ) : ℝ :=
  if i < nn then o.vea + o.ver * |v| else o.iea + o.ier * |v|

theorem stepCoeff_lt {L : List ℝ} {thr : ℝ} (h2 : thr ≤ 2) :
    Transient.stepCoeff L < thr ↔ ∃ v ∈ L, v < thr := by
  have key : ∀ (L : List ℝ) (a : ℝ), L.foldl (fun m v => if v < m then v else m) a < thr ↔ a < thr ∨ ∃ v ∈ L, v < thr := by
    intro L
    induction L with
    | nil => simp
    | cons b L ih =>
      intro a
      simp only [List.foldl_cons, List.mem_cons, exists_eq_or_imp]
      rw [ih]
      split
      · rename_i h
        constructor
        · rintro (h1 | h1)
          · exact .inr (.inl h1)
          · exact .inr (.inr h1)
        · rintro (h1 | h1 | h1)
          · exact .inl (h.trans h1)
          · exact .inl h1
          · exact .inr h1
      · rename_i h
        constructor
        · rintro (h1 | h1)
          · exact .inl h1
          · exact .inr (.inr h1)
        · rintro (h1 | h1 | h1)
          · exact .inl h1
          · exact .inl ((not_lt.mp h).trans_lt h1)
          · exact .inr h1
  unfold Transient.stepCoeff
  rw [key]
  simp [not_lt.mpr h2]

/-- when one variable asks for a smaller step -/
theorem factor_lt {a l thr : ℝ} (ha : 0 < a) (hl : 0 < l) (ht : 0 < thr) (p : Nat) :
    (a / l) ^ (1 / ((p : ℝ) + 1)) < thr ↔ a < thr ^ (p + 1) * l := by
  have hp : (0 : ℝ) < (p : ℝ) + 1 := by positivity
  rw [← Real.rpow_lt_rpow_iff (by positivity) ht.le hp, ← Real.rpow_mul (by positivity), one_div,
    inv_mul_cancel₀ hp.ne', Real.rpow_one, div_lt_iff₀ hl]
  norm_cast

/-- C123: a step is kept exactly when the local error of each variable is at most the allowed one divided by a power
of the threshold; for node voltages the allowed error is the one of the options, for currents the absolute part is
the one for voltages. -/
theorem C123_kept_partial {m : Nat} (o : ErrOpts) (ho : 0 < o.vea ∧ 0 ≤ o.ver ∧ 0 ≤ o.ier) (thr : ℝ) (h0 : 0 < thr)
    (h2 : thr ≤ 2) (nn order : Nat) (x lte : Fin m → ℝ) (hl : ∀ i, 0 ≤ lte i) :
    keeps o thr nn order x lte ↔
      ∀ i : Fin m, thr ^ (order + 1) * lte i ≤
        if i.val < nn then tolerance o nn i (x i) else o.vea + o.ier * |x i| := by
  have htol : ∀ i : Fin m, aerror o nn i + rerror o nn i * |x i| =
      if i.val < nn then tolerance o nn i (x i) else o.vea + o.ier * |x i| := by
    intro i
    unfold aerror rerror tolerance
    split <;> rfl
  have hpos : ∀ i : Fin m, 0 < aerror o nn i + rerror o nn i * |x i| := by
    intro i
    unfold aerror rerror
    split
    · exact add_pos_of_pos_of_nonneg ho.1 (mul_nonneg ho.2.1 (abs_nonneg _))
    · exact add_pos_of_pos_of_nonneg ho.1 (mul_nonneg ho.2.2 (abs_nonneg _))
  unfold keeps
  rw [stepCoeff_lt h2]
  constructor
  · intro h i
    rw [← htol]
    by_contra hc
    have hlt := not_le.mp hc
    have hne : lte i ≠ 0 := by
      intro h0'
      rw [h0', mul_zero] at hlt
      exact absurd hlt (not_lt.mpr (hpos i).le)
    have hli : 0 < lte i := lt_of_le_of_ne (hl i) (Ne.symm hne)
    refine h ⟨_, ?_, (factor_lt (hpos i) hli h0 order).mpr hlt⟩
    unfold factors
    rw [List.mem_filterMap]
    exact ⟨i, List.mem_finRange i, by rw [if_pos hne]⟩
  · rintro h ⟨v, hv, hlt⟩
    unfold factors at hv
    rw [List.mem_filterMap] at hv
    obtain ⟨i, -, hi⟩ := hv
    split at hi
    · rename_i hne
      cases hi
      have hli : 0 < lte i := lt_of_le_of_ne (hl i) (Ne.symm hne)
      have := (factor_lt (hpos i) hli h0 order).mp hlt
      rw [htol] at this
      exact absurd (h i) (not_le.mpr this)
    · cases hi

/-- the default options -/
noncomputable def errDefault : ErrOpts := ⟨1 / 10 ^ 6, 1 / 10 ^ 3, 1 / 10 ^ 9, 1 / 10 ^ 3⟩

/-- C123 is false for currents: with the default options and threshold (0.9), a current of zero with a local error of
half a microampere is kept, 500 times what `iea` and `ier` allow. -/
theorem C123_currents_refuted :
    keeps (m := 1) errDefault (9 / 10) 0 1 ![0] ![1 / (2 * 10 ^ 6)] ∧
    tolerance errDefault 0 0 0 * 500 = 1 / (2 * 10 ^ 6) := by
  constructor
  · rw [C123_kept_partial errDefault (by norm_num [errDefault]) _ (by norm_num) (by norm_num) _ _ _ _
      (fun i => by fin_cases i; norm_num)]
    intro i
    fin_cases i
    norm_num [errDefault]
  · norm_num [tolerance, errDefault]

/-- a voltage of 1 V with an error of 2 mV is not kept, with 1 mV it is -/
example : ¬ keeps (m := 1) errDefault (9 / 10) 1 1 ![1] ![2 / 10 ^ 3] ∧
    keeps (m := 1) errDefault (9 / 10) 1 1 ![1] ![1 / 10 ^ 3] := by
  constructor <;>
    rw [C123_kept_partial errDefault (by norm_num [errDefault]) _ (by norm_num) (by norm_num) _ _ _ _
      (fun i => by fin_cases i; norm_num)]
  · intro h
    have := h 0
    norm_num [errDefault, tolerance] at this
  · intro i
    fin_cases i
    norm_num [errDefault, tolerance]

/-! ### C123: the order -/

section order
open Polynomial

/-- the formula of a method, for one variable -/
noncomputable def Meth.formulaOf (mt : Meth) (t x dx : Nat → K) (h : K) : DF.DFRes K :=
  match mt with
  | .euler => DF.implicitEuler t x h
  | .trap => DF.trap t x dx h
  | .gear n => DF.gear n t x h

/-- the formula gives the derivative of the waveform `p` at the new point -/
def Exact (mt : Meth) (t : Nat → K) (h : K) (p : K[X]) : Prop :=
  let r := mt.formulaOf t (fun k => p.eval (t k)) (fun k => p.derivative.eval (t k)) h
  r.c1 * p.eval (t 0 + h) + r.c0 = p.derivative.eval (t 0 + h)

theorem gear_c0_zero (n : Nat) (t x : Nat → K) (h : K) (hx : ∀ k, k < n → x k = 0) : (DF.gear n t x h).c0 = 0 := by
  have key : ∀ k, k ≤ n → (List.range k).foldl (fun a i => a + DF.gearGamma n (DF.gearS t h) (i + 1) * x i) 0 = 0 := by
    intro k hk
    induction k with
    | zero => rfl
    | succ k ih => rw [List.range_succ, List.foldl_append, ih (by omega)]; simp [hx k (by omega)]
  exact key n le_rfl

/-- C123: the order that turns the error into a step is the degree up to which the formula is exact on polynomials,
and no other number: there is a polynomial one degree higher for which it is not. -/
theorem C123_order (mt : Meth) (t : Nat → K) (h : K) (hh : h ≠ 0) (hg : DF.Grid mt.order t h) :
    (∀ p : K[X], p.degree ≤ mt.order → Exact mt t h p) ∧
      ∃ p : K[X], p.natDegree = mt.order + 1 ∧ ¬ Exact mt t h p := by
  cases mt with
  | euler =>
    refine ⟨fun p hp => ?_, X ^ 2, by simp [Meth.order], ?_⟩
    · rw [eq_X_add_C_of_degree_le_one hp]
      simp only [Exact, Meth.formulaOf, DF.implicitEuler]
      simp
      field_simp
      ring
    · simp only [Exact, Meth.formulaOf, DF.implicitEuler]
      simp
      intro hc
      field_simp at hc
      have : h * h = 0 := by linear_combination -hc
      exact hh (mul_self_eq_zero.mp this)
  | trap =>
    refine ⟨fun p hp => ?_, X ^ 3, by simp [Meth.order], ?_⟩
    · have e : p = C (p.coeff 2) * X ^ 2 + C (p.coeff 1) * X + C (p.coeff 0) := by
        have := p.as_sum_range_C_mul_X_pow' (n := 3) (by
          have : p.natDegree ≤ 2 := natDegree_le_iff_degree_le.mpr hp
          omega)
        conv_lhs => rw [this]
        simp [Finset.sum_range_succ]
        ring
      rw [e]
      simp only [Exact, Meth.formulaOf, DF.trap]
      simp
      field_simp
      ring
    · simp only [Exact, Meth.formulaOf, DF.trap]
      simp
      intro hc
      field_simp at hc
      have : h * h * h = 0 := by linear_combination -hc
      simp at this
      exact hh this
  | gear n =>
    refine ⟨fun p hp => DF.C30_polynomials_exact n t h hg p hp,
      (∏ k ∈ Finset.range n, (X - C (t k))) * (X - C (t 0 + h)), ?_, ?_⟩
    · rw [natDegree_mul (Finset.prod_ne_zero_iff.mpr fun k _ => X_sub_C_ne_zero _) (X_sub_C_ne_zero _),
        natDegree_prod _ _ fun k _ => X_sub_C_ne_zero _, natDegree_X_sub_C]
      simp [Meth.order]
    · simp only [Exact, Meth.formulaOf]
      rw [gear_c0_zero]
      · simp only [eval_mul, eval_sub, eval_X, eval_C, sub_self, mul_zero, zero_add, derivative_mul, derivative_sub,
          derivative_X, derivative_C, sub_zero, eval_add, mul_one, add_zero]
        rw [eval_prod]
        intro hc
        have hne : ∏ k ∈ Finset.range n, (X - C (t k) : K[X]).eval (t 0 + h) ≠ 0 := by
          refine Finset.prod_ne_zero_iff.mpr fun k hk => ?_
          simp only [eval_sub, eval_X, eval_C]
          exact sub_ne_zero.mpr (hg.2 k (Finset.mem_range.mp hk).le).symm
        exact hne hc.symm
      · intro k hk
        rw [eval_mul, eval_prod, Finset.prod_eq_zero (Finset.mem_range.mpr hk) (by simp), zero_mul]

example : DF.Grid (Meth.gear 2).order (fun k => -(k : ℚ)) 1 := by
  refine ⟨fun i _ j _ h => ?_, fun i _ => ?_⟩
  · simpa using h
  · have : (0 : ℚ) ≤ i := Nat.cast_nonneg i
    simp only [Nat.cast_zero, neg_zero, zero_add]
    linarith

end order

/-! ### examples -/

/-- 1 S and 1 F at one node -/
def rc : Net ℚ 1 := ⟨!![1], !![1], 0, fun _ => 0, 1, 1 / 10 ^ 12, false, fun _ => 0, fun _ => 0, []⟩

/-- the same with a conductance of -2 S, less Gmin -/
def neg : Net ℚ 1 := ⟨!![-2 - 1 / 10 ^ 12], !![1], 0, fun _ => 0, 1, 1 / 10 ^ 12, false, fun _ => 0, fun _ => 0, []⟩

/-- standard method only -/
def stdOpts : OOpts ℚ := { dflt with meth := ⟨true, false, false, 27⟩ }

example : PassiveNet 1 rc where
  linear := rfl
  locked := rfl
  N := rfl
  Tt := fun _ => rfl
  sym := by ext i j; fin_cases i; fin_cases j; rfl
  store := fun v => by
    simp only [rc, one_mul]
    simp [dotProduct, mulVec, mul_self_nonneg]
  static := fun v => by
    simp only [rc, one_mul]
    simp [dotProduct, mulVec, mul_self_nonneg]
  nodes := one_mul _
  regular := by simp
  gmin := by norm_num [rc]

/-- one step of 1 s from 1 V: the point is found (half a volt, but for Gmin) -/
example : ∃ e, (run ⟨dflt, .euler, true, 2⟩ rc ![1] [.keep 1] (start ⟨dflt, .euler, true, 2⟩ 0 1 ![1])).st.points = [e] ∧
    Holds rc e ∧ e.t = 1 ∧ e.x 0 = 1 / (2 + 1 / 10 ^ 12) := by
  have hd : (rc.mna + (1 / 1 : ℚ) • rc.D + gminMat rc.nn rc.gmin).det ≠ 0 := by
    show ((!![1] + (1 / 1 : ℚ) • !![1] : Matrix (Fin 1) (Fin 1) ℚ) + gminMat 1 _).det ≠ 0
    rw [floating_mat]; norm_num [rc]
  have hf : formula (m := 1) .euler true 0 [⟨0, ![1], none⟩] (1 : ℚ) = .ok ⟨1 / 1, fun i => -1 / 1 * ![1] i, none⟩ := by
    simp [formula, firstIters, startPred, Meth.required, Meth.df, eulerDf, DF.implicitEuler, xAt]
  obtain ⟨z, h1, h2⟩ := dcSolve_regular (c := rc.at ⟨1 / 1, fun i => -1 / 1 * ![1] i, none⟩ (0 + 1)) (o := dflt)
    ⟨rfl, by decide⟩ rfl ⟨rfl, rfl⟩ rc.gmin hd (some ![1]) 63
  refine ⟨⟨0 + 1, z, some ((1 / 1 : ℚ) • z + fun i => -1 / 1 * ![1] i)⟩, ?_, ?_, by norm_num, ?_⟩
  · unfold run pass
    have hf' : formula (⟨dflt, .euler, true, 2⟩ : Cfg ℚ).meth true 0
      (start ⟨dflt, .euler, true, 2⟩ 0 1 (![1] : Fin 1 → ℚ)).buf 1 = _ := hf
    simp only [start] at hf' ⊢
    rw [hf']
    have hx : dcSolve dflt (rc.at ⟨1 / 1, fun i => -1 / 1 * ![1] i, none⟩ (0 + 1)) rc.gmin
      (some (startX ⟨dflt, .euler, true, 2⟩ ![1] (start ⟨dflt, .euler, true, 2⟩ 0 1 ![1]) ⟨1 / 1, fun i => -1 / 1 * ![1] i, none⟩))
        = .solved z := by
      have hs : startX ⟨dflt, .euler, true, 2⟩ ![1] (start ⟨dflt, .euler, true, 2⟩ 0 1 ![1])
        (⟨1 / 1, fun i => -1 / 1 * ![1] i, none⟩ : Formula ℚ 1) = ![1] := rfl
      rw [hs, ← h1]
    simp only [start] at hx
    simp only [hx]
    rfl
  · exact C121_regular_step (o := dflt) ⟨rfl, by decide⟩ rfl rc rfl rfl ⟨1 / 1, fun i => -1 / 1 * ![1] i, none⟩ (0 + 1)
      ![1] z hd (by rw [← h1])
  · have e3 : ((!![1] + (1 / 1 : ℚ) • !![1] : Matrix (Fin 1) (Fin 1) ℚ) + gminMat 1 (1 / 10 ^ 12)) *ᵥ z +
        (0 + 0 + !![1] *ᵥ (fun i => -1 / 1 * ![1] i)) = 0 := h2
    rw [floating_mat] at e3
    have := congrFun e3 0
    simp [vecHead] at this
    show z 0 = _
    rw [eq_div_iff (by norm_num)]
    norm_num at this ⊢
    linarith

/-- C121 is false with the default options: the matrix of a step of half a second is singular, Gmin stepping solves
another circuit, with a conductance of 1e-10 S at the node, and the point is recorded although it does not satisfy
the equations. -/
theorem C121_default_refuted :
    ∃ e, (run ⟨dflt, .euler, true, 2⟩ neg ![1] [.keep 1] (start ⟨dflt, .euler, true, 2⟩ 0 (1 / 2) ![1])).st.points = [e] ∧
      ¬ Holds neg e := by
  have hd : (neg.mna + (1 / (1 / 2) : ℚ) • neg.D + gminMat neg.nn neg.gmin).det = 0 := by
    show ((!![-2 - 1 / 10 ^ 12] + (1 / (1 / 2) : ℚ) • !![1] : Matrix (Fin 1) (Fin 1) ℚ) + gminMat 1 (1 / 10 ^ 12)).det = 0
    rw [floating_mat]; norm_num
  have hf : formula (m := 1) .euler true 0 [⟨0, ![1], none⟩] (1 / 2 : ℚ) =
      .ok ⟨1 / (1 / 2), fun i => -1 / (1 / 2) * ![1] i, none⟩ := by
    simp [formula, firstIters, startPred, Meth.required, Meth.df, eulerDf, DF.implicitEuler, xAt]
  obtain ⟨z, h1, h2⟩ := (dcSolve_singular (c := neg.at ⟨1 / (1 / 2), fun i => -1 / (1 / 2) * ![1] i, none⟩ (0 + 1 / 2))
    (o := dflt) ⟨rfl, by decide⟩ ⟨rfl, rfl, rfl, by decide⟩ ⟨rfl, rfl⟩ neg.gmin hd (some ![1])).1 (by
      intro j hj
      show (gminMat 1 _ + (!![-2 - 1 / 10 ^ 12] + (1 / (1 / 2) : ℚ) • !![1]) : Matrix (Fin 1) (Fin 1) ℚ).det ≠ 0
      rw [floating_mat]
      interval_cases j <;> norm_num)
  refine ⟨⟨0 + 1 / 2, z, some ((1 / (1 / 2) : ℚ) • z + fun i => -1 / (1 / 2) * ![1] i)⟩, ?_, ?_⟩
  · unfold run pass
    have hf' : formula (⟨dflt, .euler, true, 2⟩ : Cfg ℚ).meth true 0
      (start ⟨dflt, .euler, true, 2⟩ 0 (1 / 2) (![1] : Fin 1 → ℚ)).buf (1 / 2) = _ := hf
    simp only [start] at hf' ⊢
    rw [hf']
    have hx : dcSolve dflt (neg.at ⟨1 / (1 / 2), fun i => -1 / (1 / 2) * ![1] i, none⟩ (0 + 1 / 2)) neg.gmin
      (some (startX ⟨dflt, .euler, true, 2⟩ ![1] (start ⟨dflt, .euler, true, 2⟩ 0 (1 / 2) ![1])
        ⟨1 / (1 / 2), fun i => -1 / (1 / 2) * ![1] i, none⟩)) = .solved z := h1
    simp only [start] at hx
    simp only [hx]
    rfl
  · rintro ⟨dx, hdx, he⟩
    simp only [Option.some.injEq] at hdx
    subst hdx
    have e3 : (!![-2 - 1 / 10 ^ 12] : Matrix (Fin 1) (Fin 1) ℚ) *ᵥ z + gminMat 1 (1 / 10 ^ 12) *ᵥ z +
      !![1] *ᵥ ((1 / (1 / 2) : ℚ) • z + fun i => -1 / (1 / 2) * ![1] i) + 0 + 0 = 0 := he
    rw [floating_mat] at e3
    have := congrFun e3 0
    simp [vecHead] at this
    norm_num at this
    linarith

end Verif.Tran
