import Verif.Props.Rlc
import Mathlib.Tactic.LinearCombination
import Mathlib.Data.Rat.Floor

/-!
C197: stored energy in transients with Gear's formulas (transient.py:322-411, gear.py:122-208).
-/

namespace Verif.Tran
open Matrix Verif.Op Verif.Circuit

variable {K : Type} [Field K] [LinearOrder K] [IsStrictOrderedRing K] {m : Nat}

/-- the energy of two points one after the other: that of the later one and that of the point they lead to -/
def energy2 (S : Matrix (Fin m) (Fin m) K) (n : Net K m) (x1 x0 : Fin m → K) : K := energy S n x1 + energy S n ((2 : K) • x1 - x0)

omit [IsStrictOrderedRing K] in
theorem energy_nonneg {S : Matrix (Fin m) (Fin m) K} {n : Net K m} (hp : PassiveNet S n) (x : Fin m → K) : 0 ≤ energy S n x :=
  hp.store x

/-- what a passive circuit takes up in a step -/
theorem taken {S : Matrix (Fin m) (Fin m) K} {n : Net K m} (hp : PassiveNet S n) {g : K} (hg : 0 ≤ g) {x1 w : Fin m → K}
    (e : n.mna *ᵥ x1 + gminMat n.nn g *ᵥ x1 + n.D *ᵥ w = 0) : x1 ⬝ᵥ ((S * n.D) *ᵥ w) ≤ 0 := by
  have e3 := congrArg (fun w => x1 ⬝ᵥ (S *ᵥ w)) e
  rw [← add_mulVec] at e3
  simp only [mulVec_add, mulVec_mulVec, dotProduct_add, mulVec_zero, dotProduct_zero] at e3
  have h1 := hp.load hg x1
  linarith

/-- a step of implicit Euler, once more -/
theorem euler_energy2 {S : Matrix (Fin m) (Fin m) K} {n : Net K m} (hp : PassiveNet S n) {g : K} (hg : 0 ≤ g) {h : K}
    (hh : 0 < h) {x0 x1 : Fin m → K}
    (e : n.mna *ᵥ x1 + gminMat n.nn g *ᵥ x1 + n.D *ᵥ ((1 / h) • x1 + fun i => -1 / h * x0 i) = 0) :
    energy S n ((2 : K) • x1 - x0) ≤ energy S n x0 := by
  have h2 := taken hp hg e
  have hw : ((1 / h) • x1 + fun i => -1 / h * x0 i) = (1 / h) • (x1 - x0) := by
    funext i
    simp only [Pi.smul_apply, Pi.sub_apply, Pi.add_apply, smul_eq_mul]
    ring
  rw [hw, mulVec_smul, dotProduct_smul, smul_eq_mul] at h2
  have h3 : x1 ⬝ᵥ ((S * n.D) *ᵥ (x1 - x0)) ≤ 0 := by
    by_contra hc
    have : 0 < 1 / h * (x1 ⬝ᵥ ((S * n.D) *ᵥ (x1 - x0))) := mul_pos (by positivity) (not_le.mp hc)
    linarith
  have h4 := dot_symm hp.sym x1 x0
  unfold energy
  simp only [mulVec_sub, mulVec_smul, dotProduct_sub, sub_dotProduct, dotProduct_smul, smul_dotProduct, smul_eq_mul] at h3 ⊢
  linarith

/-- a step of Gear's formula of second order, equal steps -/
theorem gear2_energy {S : Matrix (Fin m) (Fin m) K} {n : Net K m} (hp : PassiveNet S n) {g : K} (hg : 0 ≤ g) {h : K}
    (hh : 0 < h) {x0 x1 x2 : Fin m → K}
    (e : n.mna *ᵥ x2 + gminMat n.nn g *ᵥ x2 + n.D *ᵥ ((3 / (2 * h)) • x2 + fun i => -2 / h * x1 i + 1 / (2 * h) * x0 i) = 0) :
    energy2 S n x2 x1 ≤ energy2 S n x1 x0 := by
  have h2 := taken hp hg e
  have hw : ((3 / (2 * h)) • x2 + fun i => -2 / h * x1 i + 1 / (2 * h) * x0 i) =
      (1 / (2 * h)) • ((3 : K) • x2 - (4 : K) • x1 + x0) := by
    funext i
    simp only [Pi.smul_apply, Pi.sub_apply, Pi.add_apply, smul_eq_mul]
    field_simp
    ring
  rw [hw, mulVec_smul, dotProduct_smul, smul_eq_mul] at h2
  have h3 : x2 ⬝ᵥ ((S * n.D) *ᵥ ((3 : K) • x2 - (4 : K) • x1 + x0)) ≤ 0 := by
    by_contra hc
    have : 0 < 1 / (2 * h) * (x2 ⬝ᵥ ((S * n.D) *ᵥ ((3 : K) • x2 - (4 : K) • x1 + x0))) := mul_pos (by positivity) (not_le.mp hc)
    linarith
  have h5 := hp.store (x2 - (2 : K) • x1 + x0)
  have h4 := dot_symm hp.sym x1 x0
  have h6 := dot_symm hp.sym x2 x0
  have h7 := dot_symm hp.sym x2 x1
  unfold energy2 energy
  simp only [mulVec_sub, mulVec_add, mulVec_smul, dotProduct_sub, dotProduct_add, sub_dotProduct, add_dotProduct,
    dotProduct_smul, smul_dotProduct, smul_eq_mul] at h3 h5 ⊢
  linarith

omit [IsStrictOrderedRing K] in
/-- a stopped analysis keeps its state -/
theorem pass_stopped {c : Cfg K} {n : Net K m} {x0 : Fin m → K} {s : St K m} {a : Ctl K}
    (h : ∀ s', pass c n x0 s a ≠ .running s') : (pass c n x0 s a).st = s := by
  unfold pass at h ⊢
  split
  · rfl
  · rename_i f hf
    rw [hf] at h
    simp only at h
    split
    · rename_i x1 hx
      rw [hx] at h
      cases a
      · exact absurd rfl (h _)
      · exact absurd rfl (h _)
    · rename_i hx
      rw [hx] at h
      simp only at h
      split
      · rename_i hc
        rw [if_pos hc] at h
        cases a
        · exact absurd rfl (h _)
        · exact absurd rfl (h _)
      · rfl
    · rfl

/-- the coefficients of Gear's formula of second order for equal steps -/
theorem gear2_coeff {h : K} (hh : h ≠ 0) {s : Nat → K} (h1 : s 1 = h) (h2 : s 2 = 2 * h) (h3 : s 3 = 3 * h) :
    DF.gearGamma 2 s 1 = -2 / h ∧ DF.gearGamma 2 s 2 = 1 / (2 * h) ∧ DF.gearGamma0 2 s = 3 / (2 * h) := by
  have e1 : DF.gearGamma 2 s 1 = -2 / h := by
    simp only [DF.gearGamma, DF.gearAlpha, List.range_succ, List.range_zero, List.nil_append, List.cons_append, List.foldl_cons,
      List.foldl_nil, DF.gearE, h1, h2, h3]
    norm_num [h1, h2, h3]
    field_simp
    ring
  have e2 : DF.gearGamma 2 s 2 = 1 / (2 * h) := by
    simp only [DF.gearGamma, DF.gearAlpha, List.range_succ, List.range_zero, List.nil_append, List.cons_append, List.foldl_cons,
      List.foldl_nil, DF.gearE, h1, h2, h3]
    norm_num [h1, h2, h3]
    field_simp
    ring
  refine ⟨e1, e2, ?_⟩
  simp only [DF.gearGamma0, List.range_succ, List.range_zero, List.nil_append, List.cons_append, List.foldl_cons, List.foldl_nil,
    e1, e2, zero_add]
  field_simp
  ring

/-- the energies of two points never increase (newest first) -/
def Falling (S : Matrix (Fin m) (Fin m) K) (n : Net K m) : List (Entry K m) → Prop
  | a :: b :: c :: r => energy2 S n a.x b.x ≤ energy2 S n b.x c.x ∧ Falling S n (b :: c :: r)
  | _ => True

/-- what holds during an analysis with equal steps -/
structure Gear2 (S : Matrix (Fin m) (Fin m) K) (n : Net K m) (tstart : K) (x0 : Fin m → K) (h : K) (pts : List (Entry K m)) : Prop where
  times : (history tstart x0 pts).IsChain (fun a b => a.t = b.t + h)
  first : pts.length ≤ 2 → ∀ a ∈ (history tstart x0 pts).head?, energy S n a.x ≤ energy S n x0
  two : ∀ a b r, history tstart x0 pts = a :: b :: r → energy2 S n a.x b.x ≤ 2 * energy S n x0
  all : ∀ a ∈ pts, energy S n a.x ≤ 2 * energy S n x0
  falling : Falling S n pts.reverse

/-- C197: in a transient analysis of a passive circuit without sources with Gear's formula of second order and equal steps
the stored energy never exceeds twice the initial one, and the energy of two points one after the other never
increases. -/
theorem C197_gear2 (c : Cfg K) (hm : c.meth = .gear 2) (ho : Plain c.o) (S : Matrix (Fin m) (Fin m) K) (n : Net K m)
    (hp : PassiveNet S n) (tstart h : K) (hh : 0 < h) (x0 : Fin m → K) (l : List (Ctl K)) (hl : ∀ a ∈ l, a.step = h) :
    (∀ e ∈ (run c n x0 l (start c tstart h x0)).st.points, energy S n e.x ≤ 2 * energy S n x0) ∧
    Falling S n (run c n x0 l (start c tstart h x0)).st.points.reverse := by
  obtain ⟨g, hg, hload⟩ := one_load ho hp
  have key : ∀ (l : List (Ctl K)) (s : St K m), (∀ a ∈ l, a.step = h) → Inv c tstart x0 s → s.tstep = h →
      Gear2 S n tstart x0 h s.points → Gear2 S n tstart x0 h (run c n x0 l s).st.points := by
    intro l
    induction l with
    | nil => intro s _ _ _ h; exact h
    | cons a r ih =>
      intro s ha hi hst hG
      unfold run
      rcases hpass : pass c n x0 s a with s' | s' | s'
      · have hst' : s'.tstep = h := by rw [pass_step hpass]; exact ha a (List.mem_cons_self ..)
        have hi' := inv_pass hi hpass
        have har : ∀ a ∈ r, a.step = h := fun b hb => ha b (List.mem_cons_of_mem _ hb)
        rcases pass_cases hpass with ⟨st, rfl⟩ | ⟨f, x1, hf, hx, st, rfl⟩
        · exact ih _ har hi' hst' hG
        · refine ih _ har hi' hst' ?_
          obtain ⟨e, tl, hhist⟩ : ∃ e tl, history tstart x0 s.points = e :: tl := by
            unfold history
            rcases s.points.reverse with _ | ⟨e, r⟩
            · exact ⟨_, _, rfl⟩
            · exact ⟨_, _, rfl⟩
          have hnew : history tstart x0 (s.points ++ [⟨s.time + s.tstep, x1, some (f.c1 • x1 + f.c0)⟩]) =
              ⟨s.time + s.tstep, x1, some (f.c1 • x1 + f.c0)⟩ :: e :: tl := by
            rw [← hhist]
            simp only [history, List.reverse_append, List.reverse_singleton, List.cons_append, List.nil_append]
          have htime : s.time = e.t := by rw [hi.time, hhist]; rfl
          have hlenh : s.points.length = tl.length := by
            have := congrArg List.length hhist
            simpa [history] using this
          have hbuf := hi.buf
          rw [hhist] at hbuf
          -- the equations of the new point
          have hH : 0 < f.c1 → n.mna *ᵥ x1 + gminMat n.nn g *ᵥ x1 + n.D *ᵥ (f.c1 • x1 + f.c0) = 0 := by
            intro hc1
            obtain ⟨dx, hdx, heq⟩ := hload f _ _ x1 hc1 hx
            simp only [Option.some.injEq] at hdx
            subst hdx
            simpa only [hp.N, hp.Tt, add_zero] using heq
          have htimes : (history tstart x0 (s.points ++ [⟨s.time + s.tstep, x1, some (f.c1 • x1 + f.c0)⟩])).IsChain
              (fun a b => a.t = b.t + h) := by
            rw [hnew, List.isChain_cons_cons]
            refine ⟨by simp only [htime, hst], ?_⟩
            rw [← hhist]; exact hG.times
          -- what is left: the energies
          have fin : ∀ (h1 : energy2 S n x1 e.x ≤ 2 * energy S n x0)
              (h2 : s.points.length ≤ 1 → energy S n x1 ≤ energy S n x0)
              (h3 : ∀ b r', s.points.reverse = e :: b :: r' → energy2 S n x1 e.x ≤ energy2 S n e.x b.x),
              Gear2 S n tstart x0 h (s.points ++ [⟨s.time + s.tstep, x1, some (f.c1 • x1 + f.c0)⟩]) := by
            intro h1 h2 h3
            refine ⟨htimes, ?_, ?_, ?_, ?_⟩
            · intro hle a ha
              rw [hnew] at ha
              simp only [List.head?_cons, Option.mem_some_iff] at ha
              subst ha
              simp only [List.length_append, List.length_singleton] at hle
              exact h2 (by omega)
            · intro a b r' hab
              rw [hnew] at hab
              simp only [List.cons.injEq] at hab
              rw [← hab.1, ← hab.2.1]
              exact h1
            · intro a ha
              rcases List.mem_append.1 ha with ha | ha
              · exact hG.all a ha
              · rw [List.mem_singleton.1 ha]
                have := energy_nonneg hp ((2 : K) • x1 - e.x)
                unfold energy2 at h1
                linarith
            · rw [List.reverse_append, List.reverse_singleton, List.singleton_append]
              rcases hr : s.points.reverse with _ | ⟨e', r'⟩
              · trivial
              · have : e' = e := by
                  unfold history at hhist
                  rw [hr] at hhist
                  simp only [List.cons_append, List.cons.injEq] at hhist
                  exact hhist.1
                subst this
                rcases hr' : r' with _ | ⟨b, r''⟩
                · trivial
                · rw [hr'] at hr
                  refine ⟨h3 b r'' hr, ?_⟩
                  rw [← hr]; exact hG.falling
          unfold formula at hf
          have hfi : firstIters c.meth = 2 := by rw [hm]; rfl
          rw [hfi] at hf
          split at hf
          · rename_i hit
            rw [hi.iter] at hit
            split at hf
            · cases hf
            · rename_i e' tl' heb
              have hee : e' = e := by
                rw [hbuf] at heb
                rcases hk : c.len with _ | k
                · rw [hk] at heb; cases heb
                · rw [hk, List.take_succ_cons] at heb
                  simp only [List.cons.injEq] at heb
                  exact heb.1.symm
              subst hee
              simp only [eulerDf, List.length_singleton, one_ne_zero, if_false, Except.ok.injEq] at hf
              subst hf
              have heq := hH (by simp only; rw [hst]; positivity)
              have heq' : n.mna *ᵥ x1 + gminMat n.nn g *ᵥ x1 + n.D *ᵥ ((1 / h) • x1 + fun i => -1 / h * e'.x i) = 0 := by
                rw [← heq, hst]; rfl
              have g1 := euler_energy hp hg hh heq'
              have g2 := euler_energy2 hp hg hh heq'
              have g0 : energy S n e'.x ≤ energy S n x0 := hG.first (by omega) e' (by rw [hhist]; simp)
              refine fin ?_ (fun _ => g1.trans g0) ?_
              · unfold energy2; linarith
              · intro b r' hr
                have := congrArg List.length hr
                simp only [List.length_reverse, List.length_cons] at this
                omega
          · rename_i hit
            rw [hi.iter] at hit
            rw [hm] at hf
            simp only [Meth.df, gearDf] at hf
            split at hf
            · cases hf
            · rename_i hlen
              rw [hbuf] at hlen
              simp only [List.length_take, List.length_cons] at hlen
              rcases tl with _ | ⟨b, _ | ⟨d, r'⟩⟩
              · simp only [List.length_nil] at hlen; omega
              · simp only [List.length_cons, List.length_nil] at hlen; omega
              · obtain ⟨k, hk⟩ : ∃ k, c.len = k + 3 := ⟨c.len - 3, by omega⟩
                rw [hk, List.take_succ_cons, List.take_succ_cons, List.take_succ_cons] at hbuf
                have ht := hG.times
                rw [hhist, List.isChain_cons_cons, List.isChain_cons_cons] at ht
                obtain ⟨t1, t2, -⟩ := ht
                have s1 : DF.gearS (tAt s.buf) s.tstep 1 = h := by
                  simp [DF.gearS, hst]
                have s2 : DF.gearS (tAt s.buf) s.tstep 2 = 2 * h := by
                  simp [DF.gearS, hst, hbuf, tAt, t1]; ring
                have s3 : DF.gearS (tAt s.buf) s.tstep 3 = 3 * h := by
                  simp [DF.gearS, hst, hbuf, tAt, t1, t2]; ring
                obtain ⟨c1, c2, c0⟩ := gear2_coeff hh.ne' s1 s2 s3
                simp only [Except.ok.injEq] at hf
                subst hf
                have heq := hH (by simp only; rw [c0]; positivity)
                have heq' : n.mna *ᵥ x1 + gminMat n.nn g *ᵥ x1 +
                    n.D *ᵥ ((3 / (2 * h)) • x1 + fun i => -2 / h * e.x i + 1 / (2 * h) * b.x i) = 0 := by
                  rw [← heq]
                  simp only [c0]
                  congr 3
                  funext i
                  simp only [DF.gear, List.range_succ, List.range_zero, List.nil_append, List.cons_append, List.foldl_cons,
                    List.foldl_nil, zero_add, Nat.reduceAdd, c1, c2]
                  simp [xAt, hbuf]
                have g1 := gear2_energy hp hg hh heq'
                refine fin (g1.trans (hG.two e b _ hhist)) (fun hle => ?_) ?_
                · omega
                · intro b' r'' hr
                  have : b' = b := by
                    unfold history at hhist
                    rw [hr] at hhist
                    simp only [List.cons_append, List.cons.injEq, true_and] at hhist
                    exact hhist.1
                  rw [this]; exact g1
      all_goals
        have hs' := pass_stopped (c := c) (n := n) (x0 := x0) (s := s) (a := a) (by rw [hpass]; intro _ h; cases h)
        rw [hpass] at hs'
        simp only [Status.st] at hs' ⊢
        rw [hs']
        exact hG
  have := key l _ hl (inv_start c tstart h x0) rfl ⟨by simp [start, history], by simp [start, history], by simp [start, history],
    by simp [start], trivial⟩
  exact ⟨this.all, this.falling⟩

/-! ### Higher orders -/

/-- a pass with a known solution -/
theorem pass_known {c : Cfg K} (ho : Plain c.o) (hs : c.o.meth.std = true) {n : Net K m} (hl : n.nonlinear = false)
    (hk : n.locked = []) (x0 : Fin m → K) {s : St K m} {f : Formula K m}
    (hf : formula c.meth c.control s.iter s.buf s.tstep = .ok f) (hd : (n.mna + f.c1 • n.D + gminMat n.nn n.gmin).det ≠ 0)
    {z : Fin m → K}
    (hz : (n.mna + f.c1 • n.D + gminMat n.nn n.gmin) *ᵥ z + (n.N + n.Tt (s.time + s.tstep) + n.D *ᵥ f.c0) = 0) (h : K) :
    pass c n x0 s (.keep h) = .running {
      time := s.time + s.tstep, tstep := h, iter := s.iter + 1, x := some z,
      buf := (Entry.mk (s.time + s.tstep) z (some (f.c1 • z + f.c0)) :: s.buf).take c.len,
      points := s.points ++ [⟨s.time + s.tstep, z, some (f.c1 • z + f.c0)⟩] } := by
  obtain ⟨w, h1, h2⟩ := dcSolve_regular (c := n.at f (s.time + s.tstep)) ho hs ⟨hl, hk⟩ n.gmin hd (some (startX c x0 s f)) 63
  have hw : w = z := by
    have : (n.mna + f.c1 • n.D + gminMat n.nn n.gmin) *ᵥ (w - z) = 0 := by
      have h2' : (n.mna + f.c1 • n.D + gminMat n.nn n.gmin) *ᵥ w + (n.N + n.Tt (s.time + s.tstep) + n.D *ᵥ f.c0) = 0 := h2
      rw [mulVec_sub]
      exact sub_eq_zero.2 (add_right_cancel (h2'.trans hz.symm))
    exact sub_eq_zero.1 (inj_of_det hd this)
  subst hw
  unfold pass
  rw [hf]
  simp only [h1]

/-- an inductance of 1 H beside a capacitance of 1 F, with the Gmin of the default options: voltage and current -/
def lc : Net ℚ 2 where
  mna := !![0, 1; 1, 0]
  D := !![1, 0; 0, -1]
  N := 0
  Tt := fun _ => 0
  nn := 1
  gmin := 1 / 10 ^ 12
  nonlinear := false
  J := fun _ => 0
  Tx := fun _ => 0
  locked := []

theorem lc_gmin (g : ℚ) : gminMat (m := 2) 1 g = !![g, 0; 0, 0] := by
  ext i j
  fin_cases i <;> fin_cases j <;> simp [gminMat]

theorem lc_passive : PassiveNet !![1, 0; 0, -1] lc where
  linear := rfl
  locked := rfl
  N := rfl
  Tt := fun _ => rfl
  sym := by simp only [lc]; ext i j; fin_cases i <;> fin_cases j <;> simp
  store := fun v => by
    simp [lc, dotProduct, Fin.sum_univ_two, Matrix.mulVec]
    nlinarith [mul_self_nonneg (v 0), mul_self_nonneg (v 1)]
  static := fun v => by
    simp [lc, dotProduct, Fin.sum_univ_two, Matrix.mulVec]
    linarith [mul_comm (v 0) (v 1)]
  nodes := by
    show _ * gminMat 1 1 = gminMat 1 1
    rw [lc_gmin]
    ext i j
    fin_cases i <;> fin_cases j <;> simp
  regular := by simp [Matrix.det_fin_two]
  gmin := by norm_num [lc]

theorem lc_energy (x : Fin 2 → ℚ) : energy !![1, 0; 0, -1] lc x = x 0 ^ 2 + x 1 ^ 2 := by
  simp [energy, lc, dotProduct, Fin.sum_univ_two, Matrix.mulVec]
  ring

/-- the solution of the equations of a step -/
def lcSolve (c a b : ℚ) : ℚ × ℚ :=
  let i := -(a + (c + 1 / 10 ^ 12) * b) / (1 + c * (c + 1 / 10 ^ 12))
  (b + c * i, i)

theorem lcSolve_eq {c : ℚ} (hc : 0 < c) (c0 : Fin 2 → ℚ) (t : ℚ) :
    (lc.mna + c • lc.D + gminMat lc.nn lc.gmin).det ≠ 0 ∧
    (lc.mna + c • lc.D + gminMat lc.nn lc.gmin) *ᵥ ![(lcSolve c (c0 0) (c0 1)).1, (lcSolve c (c0 0) (c0 1)).2] +
      (lc.N + lc.Tt t + lc.D *ᵥ c0) = 0 := by
  have hM : lc.mna + c • lc.D + gminMat lc.nn lc.gmin = !![c + 1 / 10 ^ 12, 1; 1, -c] := by
    show !![0, 1; 1, 0] + c • !![1, 0; 0, -1] + gminMat 1 (1 / 10 ^ 12) = _
    rw [lc_gmin]
    ext i j
    fin_cases i <;> fin_cases j <;> simp
  have hpos : 0 < 1 + c * (c + 1 / 10 ^ 12) := by positivity
  rw [hM]
  refine ⟨?_, ?_⟩
  · rw [Matrix.det_fin_two]
    simp only [Matrix.of_apply, Matrix.cons_val_zero, Matrix.cons_val_one, Matrix.cons_val']
    intro h
    nlinarith
  · show !![c + 1 / 10 ^ 12, 1; 1, -c] *ᵥ _ + (0 + 0 + !![1, 0; 0, -1] *ᵥ c0) = 0
    have hi : (lcSolve c (c0 0) (c0 1)).2 * (1 + c * (c + 1 / 10 ^ 12)) = -(c0 0 + (c + 1 / 10 ^ 12) * c0 1) :=
      div_mul_cancel₀ _ hpos.ne'
    have hv : (lcSolve c (c0 0) (c0 1)).1 = c0 1 + c * (lcSolve c (c0 0) (c0 1)).2 := rfl
    funext r
    fin_cases r
    · simp [dotProduct, Fin.sum_univ_two, hv]
      norm_num at hi ⊢
      linarith
    · simp [dotProduct, Fin.sum_univ_two, hv]
      ring

/-- time, voltage and current of the `j`-th entry -/
def at3 (l : List (ℚ × ℚ × ℚ)) (j : Nat) : ℚ × ℚ × ℚ := l[j]?.getD (0, 0, 0)

/-- the next point of an analysis with steps of 2 s: six times implicit Euler, then Gear's formula of sixth order -/
def nextLc (k : Nat) (l : List (ℚ × ℚ × ℚ)) : ℚ × ℚ × ℚ :=
  let c := if k < 6 then 1 / 2 else 49 / 40
  let w := fun (x : Nat → ℚ) => if k < 6 then -1 / 2 * x 0 else
    -3 * x 0 + 15 / 4 * x 1 - 10 / 3 * x 2 + 15 / 8 * x 3 - 3 / 5 * x 4 + 1 / 12 * x 5
  ((at3 l 0).1 + 2, lcSolve c (w fun j => (at3 l j).2.1) (w fun j => (at3 l j).2.2))

def pathLc : Nat → List (ℚ × ℚ × ℚ)
  | 0 => [(0, 1, 0)]
  | k + 1 => nextLc k (pathLc k) :: pathLc k

theorem pathLc_length (k : Nat) : (pathLc k).length = k + 1 := by
  induction k with
  | zero => rfl
  | succ k ih => simp [pathLc, ih]

theorem pathLc_times (k : Nat) : ∀ j, j ≤ k → (at3 (pathLc k) j).1 = 2 * ((k : ℚ) - j) := by
  induction k with
  | zero =>
    intro j hj
    obtain rfl : j = 0 := by omega
    simp [pathLc, at3]
  | succ k ih =>
    intro j hj
    cases j with
    | zero =>
      have := ih 0 (by omega)
      show (at3 (pathLc k) 0).1 + 2 = _
      rw [this]
      push_cast
      ring
    | succ j =>
      have := ih j (by omega)
      show (at3 (pathLc k) j).1 = _
      rw [this]
      push_cast
      ring

theorem gear6_coeff {s : Nat → ℚ} (hs : ∀ j, 1 ≤ j → j ≤ 7 → s j = 2 * j) :
    (DF.gearGamma 6 s 1 = -3 ∧ DF.gearGamma 6 s 2 = 15 / 4 ∧ DF.gearGamma 6 s 3 = -10 / 3 ∧ DF.gearGamma 6 s 4 = 15 / 8 ∧
      DF.gearGamma 6 s 5 = -3 / 5 ∧ DF.gearGamma 6 s 6 = 1 / 12) ∧ DF.gearGamma0 6 s = 49 / 40 := by
  have h1 := hs 1 (by omega) (by omega)
  have h2 := hs 2 (by omega) (by omega)
  have h3 := hs 3 (by omega) (by omega)
  have h4 := hs 4 (by omega) (by omega)
  have h5 := hs 5 (by omega) (by omega)
  have h6 := hs 6 (by omega) (by omega)
  have h7 := hs 7 (by omega) (by omega)
  have all : ∀ k, DF.gearGamma 6 s k = DF.gearE s k 1 * DF.gearE s k 2 * DF.gearE s k 3 * DF.gearE s k 4 * DF.gearE s k 5 *
      DF.gearE s k 6 * DF.gearE s k 7 * (1 / s 7 - 1 / s k) := by
    intro k
    simp [DF.gearGamma, DF.gearAlpha, List.range_succ]
  have g : DF.gearGamma 6 s 1 = -3 ∧ DF.gearGamma 6 s 2 = 15 / 4 ∧ DF.gearGamma 6 s 3 = -10 / 3 ∧ DF.gearGamma 6 s 4 = 15 / 8 ∧
      DF.gearGamma 6 s 5 = -3 / 5 ∧ DF.gearGamma 6 s 6 = 1 / 12 := by
    refine ⟨?_, ?_, ?_, ?_, ?_, ?_⟩ <;> (rw [all]; norm_num [DF.gearE, h1, h2, h3, h4, h5, h6, h7])
  refine ⟨g, ?_⟩
  obtain ⟨g1, g2, g3, g4, g5, g6⟩ := g
  simp only [DF.gearGamma0, List.range_succ, List.range_zero, List.nil_append, List.cons_append, List.foldl_cons, List.foldl_nil,
    zero_add, Nat.reduceAdd, g1, g2, g3, g4, g5, g6]
  norm_num

def trip (e : Entry ℚ 2) : ℚ × ℚ × ℚ := (e.t, e.x 0, e.x 1)

omit [IsStrictOrderedRing K] in
theorem run_append (c : Cfg K) (n : Net K m) (x0 : Fin m → K) (l1 l2 : List (Ctl K)) (s s' : St K m)
    (h : run c n x0 l1 s = .running s') : run c n x0 (l1 ++ l2) s = run c n x0 l2 s' := by
  induction l1 generalizing s with
  | nil => cases h; rfl
  | cons a r ih =>
    rw [List.cons_append]
    rw [run] at h ⊢
    split at h
    · rename_i s1 h1
      exact ih s1 h
    · rename_i other hne
      exact absurd h (hne s')

/-- the analysis computes this path -/
theorem lc_run {c : Cfg ℚ} (hm : c.meth = .gear 6) (hlen : c.len = 7) (ho : Plain c.o) (hs : c.o.meth.std = true) (k : Nat) :
    ∃ s, run c lc ![1, 0] (List.replicate k (.keep 2)) (start c 0 2 ![1, 0]) = .running s ∧ Inv c 0 ![1, 0] s ∧ s.tstep = 2 ∧
      s.points.length = k ∧ (history 0 ![1, 0] s.points).map trip = pathLc k := by
  induction k with
  | zero => exact ⟨_, rfl, inv_start .., rfl, rfl, by simp [start, history, trip, pathLc]⟩
  | succ k ih =>
    obtain ⟨s, h1, hi, hst, hk, hpath⟩ := ih
    have hx : ∀ j (i : Fin 2), xAt (history 0 ![1, 0] s.points) j i =
        if i = 0 then (at3 (pathLc k) j).2.1 else (at3 (pathLc k) j).2.2 := by
      intro j i
      rw [← hpath]
      simp only [xAt, at3, List.getElem?_map]
      rcases (history 0 ![1, 0] s.points)[j]? with _ | e
      · simp
      · fin_cases i <;> simp [trip]
    have ht : ∀ j, tAt (history 0 ![1, 0] s.points) j = (at3 (pathLc k) j).1 := by
      intro j
      rw [← hpath]
      simp only [tAt, at3, List.getElem?_map]
      rcases (history 0 ![1, 0] s.points)[j]? with _ | e <;> simp [trip]
    have hlh : (history 0 ![1, 0] s.points).length = k + 1 := by simp [history, hk]
    have hbx : ∀ j < 7, ∀ i, xAt s.buf j i = xAt (history 0 ![1, 0] s.points) j i := by
      intro j hj i
      simp [xAt, hi.buf, hlen, hj]
    have hbt : ∀ j < 7, tAt s.buf j = tAt (history 0 ![1, 0] s.points) j := by
      intro j hj
      simp [tAt, hi.buf, hlen, hj]
    -- the formula of this pass
    have hform : ∃ f, formula c.meth c.control s.iter s.buf s.tstep = .ok f ∧ 0 < f.c1 ∧
        nextLc k (pathLc k) = (s.time + s.tstep, lcSolve f.c1 (f.c0 0) (f.c0 1)) := by
      have htime : s.time + s.tstep = (at3 (pathLc k) 0).1 + 2 := by rw [hi.time, ht, hst]
      have hfi : firstIters c.meth = 6 := by rw [hm]; rfl
      unfold formula
      rw [hfi, hi.iter, hk]
      by_cases hk6 : k < 6
      · rw [if_pos hk6]
        have hb0 := hbx 0 (by omega)
        rcases hb : s.buf with _ | ⟨e, r⟩
        · have := hi.buf
          rw [hb, hlen] at this
          have := congrArg List.length this
          simp [hlh] at this
          omega
        · refine ⟨_, by simp only [eulerDf, List.length_singleton, one_ne_zero, if_false]; rfl, by simp only; rw [hst]; norm_num, ?_⟩
          have e0 : ∀ i, xAt [e] 0 i = if i = 0 then (at3 (pathLc k) 0).2.1 else (at3 (pathLc k) 0).2.2 := by
            intro i
            rw [← hx 0 i, ← hb0 i, hb]
            rfl
          rw [htime]
          simp only [nextLc, hk6, if_true, DF.implicitEuler, e0, hst]
          simp
      · rw [if_neg hk6, hm]
        have hbl : ¬ s.buf.length < 6 + 1 := by rw [hi.buf, List.length_take, hlh, hlen]; omega
        have hS : ∀ j, 1 ≤ j → j ≤ 7 → DF.gearS (tAt s.buf) s.tstep j = 2 * j := by
          intro j hj1 hj7
          obtain ⟨j, rfl⟩ : ∃ i, j = i + 1 := ⟨j - 1, by omega⟩
          simp only [DF.gearS, Nat.add_eq_zero_iff, one_ne_zero, and_false, if_false, Nat.add_sub_cancel]
          rw [hbt 0 (by omega), hbt j (by omega), ht, ht, pathLc_times k 0 (by omega), pathLc_times k j (by omega), hst]
          push_cast
          ring
        obtain ⟨⟨g1, g2, g3, g4, g5, g6⟩, g0⟩ := gear6_coeff hS
        refine ⟨_, by simp only [Meth.df, gearDf, hbl, if_false]; rfl, by simp only; rw [g0]; norm_num, ?_⟩
        simp only [DF.gear, List.range_succ, List.range_zero, List.nil_append, List.cons_append, List.foldl_cons,
          List.foldl_nil, zero_add, Nat.reduceAdd, g0, g1, g2, g3, g4, g5, g6, htime]
        rw [hbx 0 (by omega), hbx 1 (by omega), hbx 2 (by omega), hbx 3 (by omega), hbx 4 (by omega), hbx 5 (by omega),
          hbx 0 (by omega), hbx 1 (by omega), hbx 2 (by omega), hbx 3 (by omega), hbx 4 (by omega), hbx 5 (by omega)]
        simp only [hx]
        simp only [nextLc, hk6, if_false]
        congr 2
        · simp; ring
        · simp; ring
    obtain ⟨f, hf, hc1, hnext⟩ := hform
    obtain ⟨hd, hz⟩ := lcSolve_eq hc1 f.c0 (s.time + s.tstep)
    have hpass := pass_known ho hs (n := lc) rfl rfl ![1, 0] hf hd hz 2
    refine ⟨_, ?_, inv_pass hi hpass, rfl, by simp [hk], ?_⟩
    · rw [List.replicate_succ', run_append c lc ![1, 0] _ [.keep 2] _ s h1]
      unfold run
      rw [hpass]
      rfl
    · have : history 0 ![1, 0] (s.points ++ [⟨s.time + s.tstep, ![(lcSolve f.c1 (f.c0 0) (f.c0 1)).1,
          (lcSolve f.c1 (f.c0 0) (f.c0 1)).2], some (f.c1 • ![(lcSolve f.c1 (f.c0 0) (f.c0 1)).1,
          (lcSolve f.c1 (f.c0 0) (f.c0 1)).2] + f.c0)⟩]) = ⟨s.time + s.tstep, ![(lcSolve f.c1 (f.c0 0) (f.c0 1)).1,
          (lcSolve f.c1 (f.c0 0) (f.c0 1)).2], some (f.c1 • ![(lcSolve f.c1 (f.c0 0) (f.c0 1)).1,
          (lcSolve f.c1 (f.c0 0) (f.c0 1)).2] + f.c0)⟩ :: history 0 ![1, 0] s.points := by
        simp only [history, List.reverse_append, List.reverse_singleton, List.cons_append, List.nil_append]
      simp only [this, List.map_cons, hpath, pathLc, hnext]
      rfl

/-- C197 is false for higher orders: with Gear's formula of sixth order and steps of 2 s, an inductance and a capacitance with
an energy of 1 (twice ½ J) have more than 100 times that energy after 40 points, although nothing feeds them. -/
theorem C197_gear6_refuted {c : Cfg ℚ} (hm : c.meth = .gear 6) (hlen : c.len = 7) (ho : Plain c.o) (hs : c.o.meth.std = true) :
    ∃ s e, run c lc ![1, 0] (List.replicate 40 (.keep 2)) (start c 0 2 ![1, 0]) = .running s ∧ e ∈ s.points ∧
      energy !![1, 0; 0, -1] lc ![1, 0] = 1 ∧ 100 < energy !![1, 0; 0, -1] lc e.x := by
  obtain ⟨s, h1, hi, -, hk, hpath⟩ := lc_run hm hlen ho hs 40
  have hne : s.points.reverse ≠ [] := by
    intro h
    rw [List.reverse_eq_nil_iff] at h
    rw [h] at hk
    simp at hk
  obtain ⟨e, r, hr⟩ := List.exists_cons_of_ne_nil hne
  refine ⟨s, e, h1, ?_, ?_, ?_⟩
  · rw [← List.mem_reverse, hr]; simp
  · rw [lc_energy]; norm_num
  · rw [lc_energy]
    have : trip e = at3 (pathLc 40) 0 := by
      rw [← hpath]
      simp [at3, history, hr]
    have h2 : 100 < (at3 (pathLc 40) 0).2.1 ^ 2 + (at3 (pathLc 40) 0).2.2 ^ 2 := by decide +kernel
    rw [← this] at h2
    exact h2

/-! ### Examples -/

/-- the options are those of a usual analysis, with step control, as Gear's formula needs; the buffers have the sizes the
program gives them -/
example : bufferLen (.gear 6) true = .ok 7 ∧ bufferLen (.gear 2) true = .ok 3 ∧
    ∃ s e, run ⟨dflt, .gear 6, true, 7⟩ lc ![1, 0] (List.replicate 40 (.keep 2)) (start ⟨dflt, .gear 6, true, 7⟩ 0 2 ![1, 0]) = .running s ∧
      e ∈ s.points ∧ energy !![1, 0; 0, -1] lc ![1, 0] = 1 ∧ 100 < energy !![1, 0; 0, -1] lc e.x :=
  ⟨by decide, by decide, C197_gear6_refuted (c := ⟨dflt, .gear 6, true, 7⟩) rfl rfl ⟨rfl, by decide⟩ rfl⟩

/-- with the formula of second order the same circuit keeps less than twice its energy, for whatever number of points -/
example (k : Nat) : ∀ e ∈ (run ⟨dflt, .gear 2, true, 3⟩ lc ![1, 0] (List.replicate k (.keep 2))
    (start ⟨dflt, .gear 2, true, 3⟩ 0 2 ![1, 0])).st.points, e.x 0 ^ 2 + e.x 1 ^ 2 ≤ 2 := by
  intro e he
  have := (C197_gear2 ⟨dflt, .gear 2, true, 3⟩ rfl ⟨rfl, by decide⟩ _ lc lc_passive 0 2 (by norm_num) ![1, 0]
    (List.replicate k (.keep 2)) (by
      intro a ha
      rw [(List.mem_replicate.1 ha).2]
      rfl)).1 e he
  rw [lc_energy, lc_energy] at this
  simpa using this

end Verif.Tran
