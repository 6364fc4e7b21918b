import Verif.Props.Tran

/-!
C144: a circuit in its steady state stays there.
-/

namespace Verif.Steady
open Verif.Op Verif.Homotopy Verif.Tran Matrix Polynomial
open Verif.Circuit (Err)

variable {K : Type} [Field K] [LinearOrder K] [IsStrictOrderedRing K] {m : Nat}

/-- nothing moves: the same value at all times, which are different -/
structure Still (xs : Fin m → K) (l : List (Entry K m)) : Prop where
  x : ∀ e ∈ l, e.x = xs
  dx : ∀ e ∈ l, ∀ d, e.dx = some d → d = 0
  t : l.Pairwise fun later earlier => earlier.t < later.t

theorem Still.at {xs : Fin m → K} {l : List (Entry K m)} (h : Still xs l) {k : Nat} (hk : k < l.length) (i : Fin m) :
    xAt l k i = xs i := by
  rw [xAt, List.getElem?_eq_getElem hk, Option.map_some, Option.getD_some, h.x _ (List.getElem_mem hk)]

theorem Still.ne {xs : Fin m → K} {l : List (Entry K m)} (h : Still xs l) {i j : Nat} (hj : j < l.length) (hij : i < j) :
    tAt l j < tAt l i := by
  rw [tAt, tAt, List.getElem?_eq_getElem hj, List.getElem?_eq_getElem (by omega : i < l.length), Option.map_some,
    Option.getD_some, Option.map_some, Option.getD_some]
  exact List.pairwise_iff_getElem.1 h.t i j (by omega) hj hij

theorem Still.take {xs : Fin m → K} {l : List (Entry K m)} (h : Still xs l) (k : Nat) : Still xs (l.take k) :=
  ⟨fun e he => h.x e (List.mem_of_mem_take he), fun e he => h.dx e (List.mem_of_mem_take he),
    h.t.sublist (List.take_sublist k l)⟩

theorem Still.grid {xs : Fin m → K} {l : List (Entry K m)} (h : Still xs l) {n : Nat} (hn : n < l.length) {step : K}
    (hs : 0 < step) : DF.Grid n (tAt l) step := by
  refine ⟨fun i hi j hj e => ?_, fun i hi e => ?_⟩
  · rcases lt_trichotomy i j with hlt | heq | hlt
    · exact absurd e (h.ne (by omega) hlt).ne'
    · exact heq
    · exact absurd e (h.ne (by omega) hlt).ne
  · rcases Nat.eq_zero_or_pos i with rfl | h0
    · linarith
    · have := h.ne (by omega) h0
      linarith

/-- coefficient of the unknown in Gear's formulas -/
theorem gear_c1_eq (n : Nat) (t x : Nat → K) (h : K) (hg : DF.Grid n t h) :
    (DF.gear n t x h).c1 = ∑ i ∈ Finset.range n, 1 / DF.gearS t h (i + 1) := by
  set s : Nat → K := fun i => DF.gearS t h (i + 1) with hs
  have hne : ∀ i ≤ n, s i ≠ 0 := by
    intro i hi
    simp only [hs, DF.gearS_succ]
    exact sub_ne_zero.2 (hg.2 i hi).symm
  have coef : ∀ k, k ≤ n → (∏ i ∈ Finset.range k, (1 - C (1 / s i) * X) : K[X]).coeff 0 = 1 ∧
      (∏ i ∈ Finset.range k, (1 - C (1 / s i) * X) : K[X]).coeff 1 = -∑ i ∈ Finset.range k, 1 / s i := by
    intro k hk
    induction k with
    | zero => simp [coeff_one]
    | succ k ih =>
      obtain ⟨h0, h1⟩ := ih (by omega)
      rw [Finset.prod_range_succ, Finset.sum_range_succ]
      constructor
      · rw [mul_coeff_zero, h0]; simp
      · rw [mul_coeff_one, h0, h1]
        simp [coeff_one]
  have hdeg : (∏ i ∈ Finset.range n, (1 - C (1 / s i) * X) : K[X]).degree ≤ n := by
    refine (degree_prod_le _ _).trans ?_
    refine (Finset.sum_le_card_nsmul _ _ 1 fun i _ => ?_).trans (by simp)
    refine (degree_sub_le _ _).trans (max_le (degree_one_le.trans (by norm_num)) ?_)
    exact degree_C_mul_X_le _
  have core := DF.gear_core n t h hg _ hdeg
  rw [(coef n le_rfl).2] at core
  rw [DF.gear_c1, ← Finset.sum_neg_distrib]
  rw [neg_neg] at core
  refine Eq.trans (Finset.sum_congr rfl fun i hi => ?_) core
  rw [eval_prod, eval_prod, Finset.prod_eq_zero hi]
  · simp
  · have := hne i (Finset.mem_range.1 hi).le
    simp only [hs] at this
    simp [hs]
    field_simp
    simp

/-- order of a method that exists -/
def Real : Tran.Meth → Prop
  | .gear n => 0 < n
  | _ => True

/-- what the formula gives for a circuit in which nothing moves: no derivative, the same value as prediction -/
theorem formula_still {mt : Tran.Meth} (hmt : Real mt) {ctl : Bool} {iter : Nat} {buf : List (Entry K m)} {step : K}
    (hs : 0 < step) {xs : Fin m → K} (hb : Still xs buf) {f : Formula K m} (h : formula mt ctl iter buf step = .ok f) :
    0 < f.c1 ∧ f.c1 • xs + f.c0 = 0 ∧ ∀ p, f.pred = some p → p = xs := by
  have he : ∀ p (b : List (Entry K m)), Still xs b → eulerDf b step p = .ok f →
      0 < f.c1 ∧ f.c1 • xs + f.c0 = 0 ∧ ∀ p, f.pred = some p → p = xs := by
    intro p b hb h'
    unfold eulerDf at h'
    split at h'
    · cases h'
    · rename_i hl
      cases h'
      have h0 : ∀ i, xAt b 0 i = xs i := fun i => hb.at (by omega) i
      refine ⟨by positivity, ?_, ?_⟩
      · funext i
        simp only [DF.implicitEuler, Pi.add_apply, Pi.smul_apply, smul_eq_mul, h0, Pi.zero_apply]
        ring
      · intro q hq
        simp only [DF.implicitEuler] at hq
        split at hq
        · rename_i hlen
          simp only [Bool.and_eq_true, decide_eq_true_eq] at hlen
          cases hq
          funext i
          have h1 : xAt b 1 i = xs i := hb.at (by omega) i
          simp [h0, h1]
        · cases hq
  have ht : ∀ p, trapDf buf step p = .ok f →
      0 < f.c1 ∧ f.c1 • xs + f.c0 = 0 ∧ ∀ p, f.pred = some p → p = xs := by
    intro p h'
    unfold trapDf at h'
    split at h'
    · cases h'
    · rename_i e tl
      split at h'
      · cases h'
      · rename_i hdx
        split at h'
        · cases h'
        · split at h'
          · cases h'
          · rename_i hlen
            cases h'
            obtain ⟨d, hd⟩ : ∃ d, e.dx = some d := Option.ne_none_iff_exists'.1 (by simpa using hdx)
            have hd0 := hb.dx e (List.mem_cons_self ..) d hd
            have h0 : ∀ i, xAt (e :: tl) 0 i = xs i := fun i => hb.at (by simp) i
            refine ⟨by positivity, ?_, ?_⟩
            · funext i
              simp only [DF.trap, Pi.add_apply, Pi.smul_apply, smul_eq_mul, h0, Pi.zero_apply]
              rw [dxAt, List.getElem?_cons_zero, Option.bind_some, hd, hd0]
              simp
            · intro q hq
              simp only at hq
              split at hq
              · rename_i hp
                cases hq
                subst hp
                have hl3 : 3 ≤ (e :: tl).length := by
                  simpa using hlen
                funext i
                have e3 : (fun k : Fin 3 => xAt (e :: tl) k i) = fun k : Fin 3 => (fun _ : Nat => xs i) k := by
                  funext k
                  exact hb.at (by have := k.isLt; omega) i
                have := DF.C29_quadratic_predictor (tAt (e :: tl)) (fun k => dxAt (e :: tl) k i) step 0 0 (xs i)
                  (hb.ne (by omega) (by omega)).ne' (hb.ne (by omega) (by omega)).ne' (hb.ne (by omega) (by omega)).ne'
                simp only [DF.trap, zero_mul, zero_add] at this ⊢
                rw [e3]
                exact this
              · cases hq
  have hgr : ∀ n p, 0 < n → gearDf n buf step p = .ok f →
      0 < f.c1 ∧ f.c1 • xs + f.c0 = 0 ∧ ∀ p, f.pred = some p → p = xs := by
    intro n p hn h'
    unfold gearDf at h'
    split at h'
    · cases h'
    · rename_i hl
      cases h'
      have hg := hb.grid (n := n) (by omega) hs
      have hc : DF.gearGamma0 n (DF.gearS (tAt buf) step) = (DF.gear n (tAt buf) (fun _ => 0) step).c1 := rfl
      refine ⟨?_, ?_, ?_⟩
      · simp only [hc]
        rw [gear_c1_eq n _ _ _ hg]
        refine Finset.sum_pos (fun i hi => ?_) ⟨0, Finset.mem_range.2 hn⟩
        rw [DF.gearS_succ]
        have : tAt buf i ≤ tAt buf 0 := by
          rcases Nat.eq_zero_or_pos i with rfl | h0
          · rfl
          · exact (hb.ne (by have := Finset.mem_range.1 hi; omega) h0).le
        exact one_div_pos.2 (by linarith)
      · funext i
        simp only [hc, Pi.add_apply, Pi.smul_apply, smul_eq_mul, Pi.zero_apply]
        rw [DF.gear_c1, DF.gear_c0]
        have : ∑ k ∈ Finset.range n, DF.gearGamma n (DF.gearS (tAt buf) step) (k + 1) * xAt buf k i =
            ∑ k ∈ Finset.range n, DF.gearGamma n (DF.gearS (tAt buf) step) (k + 1) * xs i :=
          Finset.sum_congr rfl fun k hk => by rw [hb.at (by have := Finset.mem_range.1 hk; omega) i]
        rw [this, ← Finset.sum_mul]
        ring
      · intro q hq
        simp only at hq
        split at hq
        · cases hq
          funext i
          have := DF.C31_predictor_exact n (tAt buf) step hg.1 (C (xs i)) (degree_C_le.trans (by simp))
          rw [DF.gear_pred] at this
          rw [DF.gear_pred]
          refine Eq.trans (Finset.sum_congr rfl fun k hk => ?_) (this.trans (by simp))
          rw [hb.at (by have := Finset.mem_range.1 hk; omega) i]
          simp
        · cases hq
  unfold formula at h
  split at h
  · split at h
    · cases h
    · rename_i e tl
      exact he _ [e] ⟨fun a ha => hb.x a (by simp_all), fun a ha => hb.dx a (by simp_all), by simp⟩ h
  · cases mt with
    | euler => exact he _ _ hb h
    | trap => exact ht _ h
    | gear n => exact hgr n _ hmt h

/-- `dc_solve` started at a solution -/
theorem dcSolve_stays {o : OOpts K} (hm : o.meth.std = true) (hit : 0 < o.maxit)
    (ht : 0 ≤ o.tol.vea ∧ 0 ≤ o.tol.ver ∧ 0 ≤ o.tol.iea ∧ 0 ≤ o.tol.ier) {c : Circ K m} {g : K} {x : Fin m → K}
    (hF : Newton.residual (problem c g .full) x = 0) (hd : (Newton.jac (problem c g .full) x).det ≠ 0) :
    Op.dcSolve o c g (some x) = .solved x := by
  obtain ⟨r, h1, h2, h3, -⟩ := Newton.C78_stays_at_solution o.newton o.tol _ ht o.maxit hit x hF hd
  have ha : attempt o (problem c g .full) x = some (x, true) := by
    rw [attempt, h1]
    simp only [h2, h3]
  have hs : (setNext o.meth init).std.enabled = true ∧ (setNext o.meth init).gm.enabled = false ∧
      (setNext o.meth init).src.enabled = false := by simp [setNext, init, hm]
  unfold Op.dcSolve loopX
  have : choose o.meth (setNext o.meth init) = .ok .full := by unfold choose; rw [if_pos hs.1]
  rw [this]
  simp only [Option.getD_some, ha]
  simp only [after, hs, Bool.not_true, Bool.false_eq_true, if_false, Bool.false_and]

/-- number of decisions that keep a point -/
def kept : List (Ctl K) → Nat
  | [] => 0
  | .keep _ :: r => kept r + 1
  | .redo _ :: r => kept r

/-- the circuit with constant sources, loaded with Gmin, is at rest at `xs` -/
def AtRest (n : Net K m) (xs : Fin m → K) : Prop :=
  ∀ t, (n.mna + gminMat n.nn n.gmin) *ᵥ xs + n.N + n.Tt t + (if n.nonlinear then n.Tx xs else 0) = 0

/-- the matrix of every step is regular -/
def Steps (n : Net K m) (xs : Fin m → K) : Prop :=
  ∀ a : K, 0 < a → (n.mna + a • n.D + gminMat n.nn n.gmin + (if n.nonlinear then n.J xs else 0)).det ≠ 0

/-- the loop in a circuit at rest -/
structure Ok (c : Cfg K) (tstart : K) (x0 : Fin m → K) (s : St K m) : Prop where
  inv : Inv c tstart x0 s
  still : Still x0 (history tstart x0 s.points)
  pos : 0 < s.tstep
  dx : ∀ e ∈ s.points, e.dx = some 0

theorem pass_still {c : Cfg K} {n : Net K m} (hmt : Real c.meth) (hm : c.o.meth.std = true) (hit : 0 < c.o.maxit)
    (ht : 0 ≤ c.o.tol.vea ∧ 0 ≤ c.o.tol.ver ∧ 0 ≤ c.o.tol.iea ∧ 0 ≤ c.o.tol.ier) {tstart : K} {x0 : Fin m → K}
    (hr : AtRest n x0) (hS : Steps n x0) {s : St K m} (hs : Ok c tstart x0 s) {a : Ctl K} (ha : 0 < a.step) :
    (pass c n x0 s a = .raised s ∧ ∃ e, formula c.meth c.control s.iter s.buf s.tstep = .error e) ∨
    ∃ s', pass c n x0 s a = .running s' ∧ Ok c tstart x0 s' ∧ s'.points.length = s.points.length + kept [a] := by
  cases hf : formula c.meth c.control s.iter s.buf s.tstep with
  | error e => exact .inl ⟨by simp only [pass, hf], e, rfl⟩
  | ok f =>
    right
    have hb : Still x0 s.buf := by rw [hs.inv.buf]; exact hs.still.take _
    obtain ⟨h1, h2, h3⟩ := formula_still hmt hs.pos hb hf
    have hlast : s.x.getD x0 = x0 := by
      rw [hs.inv.x]
      funext i
      exact hs.still.at (by simp [history]) i
    have hst : startX c x0 s f = x0 := by
      unfold startX
      split
      · rename_i p hp
        split at hp
        · exact h3 p hp
        · cases hp
      · exact hlast
    have hx : dcSolve c.o (n.at f (s.time + s.tstep)) n.gmin (some (startX c x0 s f)) = .solved x0 := by
      rw [hst]
      refine dcSolve_stays hm hit ht ?_ ?_
      · rw [← hr (s.time + s.tstep)]
        have h0 : n.D *ᵥ (f.c1 • x0 + f.c0) = 0 := by rw [h2, mulVec_zero]
        rw [mulVec_add, mulVec_smul] at h0
        simp only [Newton.residual, problem, Net.at, add_mulVec, smul_mulVec]
        calc _ = n.mna *ᵥ x0 + gminMat n.nn n.gmin *ᵥ x0 + n.N + n.Tt (s.time + s.tstep) +
              (f.c1 • n.D *ᵥ x0 + n.D *ᵥ f.c0) + (if n.nonlinear then n.Tx x0 else 0) := by abel
          _ = _ := by rw [h0, add_zero]
      · exact hS f.c1 h1
    have hd : ∃ s', pass c n x0 s a = .running s' ∧ s'.points.length = s.points.length + kept [a] ∧
        Still x0 (history tstart x0 s'.points) ∧ ∀ e ∈ s'.points, e.dx = some 0 := by
      cases a with
      | redo h => exact ⟨{ s with tstep := h }, by simp only [pass, hf, hx], rfl, hs.still, hs.dx⟩
      | keep h =>
        refine ⟨_, by simp only [pass, hf, hx]; rfl, by simp [kept], ?_, ?_⟩
        · simp only [history, List.reverse_append, List.reverse_singleton, List.cons_append, List.nil_append]
          refine ⟨?_, ?_, ?_⟩
          · intro e he
            rcases List.mem_cons.1 he with rfl | he
            · rfl
            · exact hs.still.x e he
          · intro e he d hd
            rcases List.mem_cons.1 he with rfl | he
            · simp only [Option.some.injEq] at hd
              rw [← hd, h2]
            · exact hs.still.dx e he d hd
          · refine List.pairwise_cons.2 ⟨fun e he => ?_, hs.still.t⟩
            change e ∈ history tstart x0 s.points at he
            obtain ⟨j, hj, rfl⟩ := List.getElem_of_mem he
            have : tAt (history tstart x0 s.points) j ≤ tAt (history tstart x0 s.points) 0 := by
              rcases Nat.eq_zero_or_pos j with rfl | h0
              · rfl
              · exact (hs.still.ne hj h0).le
            rw [← hs.inv.time, tAt, List.getElem?_eq_getElem hj, Option.map_some, Option.getD_some] at this
            have := hs.pos
            show (history tstart x0 s.points)[j].t < s.time + s.tstep
            linarith
        · intro e he
          rcases List.mem_append.1 he with he | he
          · exact hs.dx e he
          · rw [List.mem_singleton.1 he]
            simp only [h2]
    obtain ⟨s', e1, e2, e3, e4⟩ := hd
    exact ⟨s', e1, ⟨inv_pass hs.inv e1, e3, by rw [pass_step e1]; exact ha, e4⟩, e2⟩

omit [LinearOrder K] [IsStrictOrderedRing K] in
theorem kept_cons (a : Ctl K) (r : List (Ctl K)) : kept (a :: r) = kept [a] + kept r := by
  cases a <;> simp [kept, add_comm]

theorem run_still {c : Cfg K} {n : Net K m} (hmt : Real c.meth) (hm : c.o.meth.std = true) (hit : 0 < c.o.maxit)
    (ht : 0 ≤ c.o.tol.vea ∧ 0 ≤ c.o.tol.ver ∧ 0 ≤ c.o.tol.iea ∧ 0 ≤ c.o.tol.ier) {tstart : K} {x0 : Fin m → K}
    (hr : AtRest n x0) (hS : Steps n x0) (l : List (Ctl K)) (hl : ∀ a ∈ l, 0 < a.step) {s : St K m}
    (hs : Ok c tstart x0 s) :
    Ok c tstart x0 (run c n x0 l s).st ∧
      ((∃ s', run c n x0 l s = .running s' ∧ s'.points.length = s.points.length + kept l) ∨
        ∃ s' l1 e, run c n x0 l s = .raised s' ∧ run c n x0 l1 s = .running s' ∧
          formula c.meth c.control s'.iter s'.buf s'.tstep = .error e) := by
  induction l generalizing s with
  | nil => exact ⟨hs, .inl ⟨s, rfl, rfl⟩⟩
  | cons a r ih =>
    rcases pass_still hmt hm hit ht hr hS hs (hl a (List.mem_cons_self ..)) with ⟨h1, e, he⟩ | ⟨s1, h1, h2, h3⟩
    · rw [run, h1]
      exact ⟨hs, .inr ⟨s, [], e, rfl, rfl, he⟩⟩
    · obtain ⟨k1, k2⟩ := ih (fun b hb => hl b (List.mem_cons_of_mem _ hb)) h2
      rw [run, h1]
      refine ⟨k1, ?_⟩
      rcases k2 with ⟨s', q1, q2⟩ | ⟨s', l1, e, q1, q2, q3⟩
      · exact .inl ⟨s', q1, by rw [q2, h3, kept_cons a r]; omega⟩
      · exact .inr ⟨s', a :: l1, e, q1, by rw [run, h1]; exact q2, q3⟩

/-- C144: a transient analysis of a circuit with constant sources which starts from the point where the circuit,
loaded with Gmin, is at rest, finds this point at all times, with derivative zero, whatever the method and the steps.
Non-linear circuits included. Missing: starting from the reported operating point, see the refutation. -/
theorem C144_stays_partial {c : Cfg K} {n : Net K m} (hmt : Real c.meth) (hm : c.o.meth.std = true) (hit : 0 < c.o.maxit)
    (ht : 0 ≤ c.o.tol.vea ∧ 0 ≤ c.o.tol.ver ∧ 0 ≤ c.o.tol.iea ∧ 0 ≤ c.o.tol.ier) (tstart step : K) (hst : 0 < step)
    {x0 : Fin m → K} (hr : AtRest n x0) (hS : Steps n x0) (l : List (Ctl K)) (hl : ∀ a ∈ l, 0 < a.step) :
    ∀ e ∈ (run c n x0 l (start c tstart step x0)).st.points, e.x = x0 ∧ e.dx = some 0 := by
  have h0 : Ok c tstart x0 (start c tstart step x0) :=
    ⟨inv_start c tstart step x0, ⟨by simp [start, history], by simp [start, history], by simp [start, history]⟩, hst,
      by simp [start]⟩
  obtain ⟨h1, -⟩ := run_still hmt hm hit ht hr hS l hl h0
  exact fun e he => ⟨h1.still.x e (by simp [history, he]), h1.dx e he⟩

/-- C144: and with step control it never stops on the way: each decision to keep a point adds one. -/
theorem C144_goes_on_partial {c : Cfg K} {n : Net K m} (hmt : Real c.meth) (hc : c.control = true)
    (hb : bufferLen c.meth true = .ok c.len) (hm : c.o.meth.std = true) (hit : 0 < c.o.maxit)
    (ht : 0 ≤ c.o.tol.vea ∧ 0 ≤ c.o.tol.ver ∧ 0 ≤ c.o.tol.iea ∧ 0 ≤ c.o.tol.ier) (tstart step : K) (hst : 0 < step)
    {x0 : Fin m → K} (hr : AtRest n x0) (hS : Steps n x0) (l : List (Ctl K)) (hl : ∀ a ∈ l, 0 < a.step) :
    ∃ s, run c n x0 l (start c tstart step x0) = .running s ∧ s.points.length = kept l := by
  have h0 : Ok c tstart x0 (start c tstart step x0) :=
    ⟨inv_start c tstart step x0, ⟨by simp [start, history], by simp [start, history], by simp [start, history]⟩, hst,
      by simp [start]⟩
  rcases (run_still hmt hm hit ht hr hS l hl h0).2 with ⟨s, h1, h2⟩ | ⟨s, l1, e, h1, h2, h3⟩
  · exact ⟨s, h1, by rw [h2]; simp [start]⟩
  · obtain ⟨f, hf, -⟩ := C122_formula_available c.meth c.len hb c rfl hc rfl n tstart step x0 l1 s (by rw [h2]; rfl) s.tstep
    rw [hf] at h3
    cases h3

/-! ### Examples -/

/-- 1 A into a resistor of 1 ohm with a capacitor of 1 F in parallel -/
def rc (g : ℚ) : Net ℚ 1 := ⟨!![1], !![1], ![-1], fun _ => 0, 1, g, false, fun _ => 0, fun _ => 0, []⟩

theorem one_gmin (g : ℚ) : gminMat (m := 1) 1 g = !![g] := by
  ext i j
  fin_cases i; fin_cases j; simp [gminMat]

example : AtRest (rc (1/4)) ![4/5] ∧ Steps (rc (1/4)) ![4/5] := by
  refine ⟨fun t => ?_, fun a ha => ?_⟩
  · show (!![1] + gminMat 1 (1/4)) *ᵥ ![4/5] + ![-1] + 0 + (if false = true then (0 : Fin 1 → ℚ) else 0) = 0
    rw [one_gmin]
    funext i
    fin_cases i
    norm_num [mulVec, dotProduct, vecHead]
  · show (!![1] + a • !![1] + gminMat 1 (1/4) + (if false = true then (0 : Matrix (Fin 1) (Fin 1) ℚ) else 0)).det ≠ 0
    rw [one_gmin]
    simp
    intro h
    linarith

example (l : List (Ctl ℚ)) (hl : ∀ a ∈ l, 0 < a.step) :
    ∀ e ∈ (run ⟨dflt, .gear 2, true, 3⟩ (rc (1/4)) ![4/5] l (start ⟨dflt, .gear 2, true, 3⟩ 0 (1/10) ![4/5])).st.points,
      e.x = ![4/5] ∧ e.dx = some 0 := by
  refine C144_stays_partial (c := ⟨dflt, .gear 2, true, 3⟩) (n := rc (1/4)) (by simp [Real]) rfl (by decide)
    (by norm_num [dflt]) 0 (1/10) (by norm_num) ?_ ?_ l hl
  · intro t
    show (!![1] + gminMat 1 (1/4)) *ᵥ ![4/5] + ![-1] + 0 + (if false = true then (0 : Fin 1 → ℚ) else 0) = 0
    rw [one_gmin]
    funext i
    fin_cases i
    norm_num [mulVec, dotProduct, vecHead]
  · intro a ha
    show (!![1] + a • !![1] + gminMat 1 (1/4) + (if false = true then (0 : Matrix (Fin 1) (Fin 1) ℚ) else 0)).det ≠ 0
    rw [one_gmin]
    simp
    intro h
    linarith

/-- C144 is false for the reported operating point: Gmin is removed from it, but is there in the transient analysis.
A resistor and a capacitor fed with a constant current drift away from the operating point. -/
theorem C144_operating_point_refuted :
    ∃ x0, opAnalysis dflt ⟨(rc (1 / 10 ^ 12)).mna, (rc (1 / 10 ^ 12)).N, 0, 1, false, fun _ => 0, fun _ => 0, []⟩ (1 / 10 ^ 12) none =
        some (some ⟨x0, 0⟩) ∧
      ∃ e, (run ⟨dflt, .euler, true, 2⟩ (rc (1 / 10 ^ 12)) x0 [.keep 1] (start ⟨dflt, .euler, true, 2⟩ 0 1 x0)).st.points = [e] ∧
        e.x ≠ x0 := by
  obtain ⟨x, h1, h2⟩ := C119_linear (o := dflt)
    (c := ⟨(rc (1 / 10 ^ 12)).mna, (rc (1 / 10 ^ 12)).N, 0, 1, false, fun _ => 0, fun _ => 0, []⟩)
    ⟨rfl, by decide⟩ rfl ⟨rfl, rfl⟩ (1 / 10 ^ 12) (by show (!![1] : Matrix (Fin 1) (Fin 1) ℚ).det ≠ 0; simp) (by
      show (!![1] + gminMat 1 (1 / 10 ^ 12) : Matrix (Fin 1) (Fin 1) ℚ).det ≠ 0
      rw [one_gmin]; norm_num) none
  have hx : x 0 = 1 := by
    have := congrFun h2 0
    simp [rc, vecHead] at this
    linarith
  refine ⟨x, h1, ?_⟩
  have hf : formula (m := 1) .euler true 0 [⟨0, x, none⟩] (1 : ℚ) = .ok ⟨1 / 1, fun i => -1 / 1 * x i, none⟩ := by
    simp [formula, firstIters, startPred, Meth.required, Meth.df, eulerDf, DF.implicitEuler, xAt]
  obtain ⟨z, e1, e2⟩ := dcSolve_regular (c := (rc (1 / 10 ^ 12)).at ⟨1 / 1, fun i => -1 / 1 * x i, none⟩ (0 + 1))
    (o := dflt) ⟨rfl, by decide⟩ rfl ⟨rfl, rfl⟩ (1 / 10 ^ 12) (by
      show ((!![1] + (1 / 1 : ℚ) • !![1] : Matrix (Fin 1) (Fin 1) ℚ) + gminMat 1 (1 / 10 ^ 12)).det ≠ 0
      rw [one_gmin]; norm_num) (some x) 63
  refine ⟨⟨0 + 1, z, some ((1 / 1 : ℚ) • z + fun i => -1 / 1 * x i)⟩, ?_, ?_⟩
  · unfold run pass
    have hf' : formula (⟨dflt, .euler, true, 2⟩ : Cfg ℚ).meth true 0
      (start ⟨dflt, .euler, true, 2⟩ 0 1 x).buf 1 = _ := hf
    simp only [start] at hf' ⊢
    rw [hf']
    have hx : dcSolve dflt ((rc (1 / 10 ^ 12)).at ⟨1 / 1, fun i => -1 / 1 * x i, none⟩ (0 + 1)) (rc (1 / 10 ^ 12)).gmin
      (some (startX ⟨dflt, .euler, true, 2⟩ x (start ⟨dflt, .euler, true, 2⟩ 0 1 x)
        ⟨1 / 1, fun i => -1 / 1 * x i, none⟩)) = .solved z := e1
    simp only [start] at hx
    simp only [hx]
    rfl
  · intro hz
    simp only at hz
    have e3 : (!![1] + (1 / 1 : ℚ) • !![1] + gminMat 1 (1 / 10 ^ 12) : Matrix (Fin 1) (Fin 1) ℚ) *ᵥ z +
      (![-1] + 0 + (!![1] : Matrix (Fin 1) (Fin 1) ℚ) *ᵥ (fun i => -1 / 1 * x i)) = 0 := e2
    rw [one_gmin, hz] at e3
    have := congrFun e3 0
    simp [vecHead, hx] at this
    norm_num at this

end Verif.Steady
