import Verif.Props.Converge
import Verif.Props.Devices

/-!
C185: transient analysis of circuits with non-linear two-terminal devices.
-/

namespace Verif.Nonlin
open Verif.Op Verif.Homotopy Verif.Tran Verif.Converge Matrix

variable {m : Nat} {S : Matrix (Fin m) (Fin m) ℝ}

/-! ### The equations up to a residual -/

/-- the equations with the devices hold at a point up to a residual `r` -/
def HoldsR (n : Net ℝ m) (r : Fin m → ℝ) (e : Entry ℝ m) : Prop :=
  ∃ dx, e.dx = some dx ∧
    n.mna *ᵥ e.x + gminMat n.nn n.gmin *ᵥ e.x + n.D *ᵥ dx + n.N + n.Tt e.t + n.Tx e.x = r

/-- `x` solves the equations of the circuit from `t0` on; `x1`, `x2` are its derivatives -/
structure SolvesN (n : Net ℝ m) (t0 : ℝ) (x x1 x2 : ℝ → Fin m → ℝ) : Prop where
  d1 : ∀ t i, HasDerivAt (fun s => x s i) (x1 t i) t
  d2 : ∀ t i, HasDerivAt (fun s => x1 s i) (x2 t i) t
  eq : ∀ t, t0 ≤ t → n.mna *ᵥ x t + gminMat n.nn n.gmin *ᵥ x t + n.D *ᵥ x1 t + n.N + n.Tt t + n.Tx (x t) = 0

/-- the energy is a form, resistors and devices only take energy -/
structure LossyN (S : Matrix (Fin m) (Fin m) ℝ) (n : Net ℝ m) : Prop where
  form : Form (S * n.D)
  static : ∀ v, 0 ≤ v ⬝ᵥ ((S * (n.mna + gminMat n.nn n.gmin)) *ᵥ v)
  grow : ∀ u v, 0 ≤ (u - v) ⬝ᵥ (S *ᵥ (n.Tx u - n.Tx v))

/-- the residual weighs at most `ε` -/
def Small (S : Matrix (Fin m) (Fin m) ℝ) (n : Net ℝ m) (ε : ℝ) (r : Fin m → ℝ) : Prop :=
  ∀ u, u ⬝ᵥ (S *ᵥ r) ≤ ε * nrm (S * n.D) u

theorem euler_error' {B : Matrix (Fin m) (Fin m) ℝ} (hB : Form B) {e0 e1 r : Fin m → ℝ} {δ : ℝ} (hδ : 0 ≤ δ)
    (h : e1 ⬝ᵥ (B *ᵥ (e1 - e0 - r)) ≤ δ * nrm B e1) : nrm B e1 ≤ nrm B e0 + nrm B r + δ := by
  rw [mulVec_sub, mulVec_sub, dotProduct_sub, dotProduct_sub, ← nrm_sq hB] at h
  have h0 := (abs_le.1 (cauchy hB e1 e0)).2
  have h1 := (abs_le.1 (cauchy hB e1 r)).2
  by_contra hn
  rw [not_le] at hn
  have : 0 < nrm B e1 := lt_of_le_of_lt (add_nonneg (add_nonneg (nrm_nonneg _) (nrm_nonneg _)) hδ) hn
  nlinarith

variable {x x1 x2 : ℝ → Fin m → ℝ} {t0 : ℝ} {n : Net ℝ m}

theorem euler_stepN (hp : LossyN S n) (hx : SolvesN n t0 x x1 x2) {M ε a h : ℝ} (hε : 0 ≤ ε) (hh : 0 < h)
    (hM : ∀ t, t0 ≤ t → nrm (S * n.D) (x2 t) ≤ M) (ha : t0 ≤ a) {y0 y1 r : Fin m → ℝ} (hr : Small S n ε r)
    (e : n.mna *ᵥ y1 + gminMat n.nn n.gmin *ᵥ y1 + n.D *ᵥ ((1 / h) • (y1 - y0)) + n.N + n.Tt (a + h) + n.Tx y1 = r) :
    nrm (S * n.D) (y1 - x (a + h)) ≤ nrm (S * n.D) (y0 - x a) + (M / 2 * h ^ 2 + h * ε) := by
  have hl := euler_local hp.form hx.d1 hx.d2 hh.le hM ha
  have key := euler_error' (e0 := y0 - x a) (e1 := y1 - x (a + h)) (r := -(x (a + h) - x a - h • x1 (a + h))) (δ := h * ε)
    hp.form (by positivity) ?_
  · have e1 : nrm (S * n.D) (-(x (a + h) - x a - h • x1 (a + h))) = nrm (S * n.D) (x (a + h) - x a - h • x1 (a + h)) := by
      unfold nrm
      rw [mulVec_neg, dotProduct_neg, neg_dotProduct, neg_neg]
    rw [e1] at key
    linarith
  · set u := y1 - x (a + h) with hu
    have h1 := hx.eq (a + h) (by linarith)
    have h2 : (n.mna + gminMat n.nn n.gmin) *ᵥ u + n.D *ᵥ ((1 / h) • (y1 - y0) - x1 (a + h)) +
        (n.Tx y1 - n.Tx (x (a + h))) = r := by
      rw [hu, mulVec_sub, mulVec_sub, add_mulVec, add_mulVec]
      have e3 : n.mna *ᵥ y1 + gminMat n.nn n.gmin *ᵥ y1 - (n.mna *ᵥ x (a + h) + gminMat n.nn n.gmin *ᵥ x (a + h)) +
          (n.D *ᵥ ((1 / h) • (y1 - y0)) - n.D *ᵥ x1 (a + h)) + (n.Tx y1 - n.Tx (x (a + h))) =
        (n.mna *ᵥ y1 + gminMat n.nn n.gmin *ᵥ y1 + n.D *ᵥ ((1 / h) • (y1 - y0)) + n.N + n.Tt (a + h) + n.Tx y1) -
          (n.mna *ᵥ x (a + h) + gminMat n.nn n.gmin *ᵥ x (a + h) + n.D *ᵥ x1 (a + h) + n.N + n.Tt (a + h) + n.Tx (x (a + h))) := by
        abel
      rw [e3, e, h1, sub_zero]
    have h3 : u ⬝ᵥ ((S * (n.mna + gminMat n.nn n.gmin)) *ᵥ u) + u ⬝ᵥ ((S * n.D) *ᵥ ((1 / h) • (y1 - y0) - x1 (a + h))) +
        u ⬝ᵥ (S *ᵥ (n.Tx y1 - n.Tx (x (a + h)))) = u ⬝ᵥ (S *ᵥ r) := by
      rw [← h2, mulVec_add, mulVec_add, dotProduct_add, dotProduct_add, mulVec_mulVec, mulVec_mulVec]
    have h4 := hp.static u
    have h5 := hp.grow y1 (x (a + h))
    rw [← hu] at h5
    have h6 := hr u
    have e4 : u - (y0 - x a) - -(x (a + h) - x a - h • x1 (a + h)) = h • ((1 / h) • (y1 - y0) - x1 (a + h)) := by
      funext i
      simp only [hu, Pi.sub_apply, Pi.neg_apply, Pi.smul_apply, smul_eq_mul]
      field_simp
      ring
    rw [e4, mulVec_smul, dotProduct_smul, smul_eq_mul, mul_assoc]
    refine mul_le_mul_of_nonneg_left ?_ hh.le
    linarith

/-- implicit Euler for any circuit whose energy is a form and whose resistors and devices take energy, if the equations hold at each
point up to residuals that weigh at most `ε` -/
theorem euler_run {c : Cfg ℝ} (hm : c.meth = .euler) (hlen : 0 < c.len) (hp : LossyN S n)
    (hx : SolvesN n t0 x x1 x2) {M H ε : ℝ} (hε : 0 ≤ ε) (hM : ∀ t, t0 ≤ t → nrm (S * n.D) (x2 t) ≤ M) {Q : Entry ℝ m → Prop}
    (hH : ∀ (f : Formula ℝ m) (t : ℝ) (xs y : Fin m → ℝ), 0 < f.c1 → dcSolve c.o (n.at f t) n.gmin (some xs) = .solved y →
      Q ⟨t, y, some (f.c1 • y + f.c0)⟩ → ∃ r, Small S n ε r ∧ HoldsR n r ⟨t, y, some (f.c1 • y + f.c0)⟩)
    {step : ℝ} (h0 : 0 < step) (h1 : step ≤ H)
    (x0 : Fin m → ℝ) (l : List (Ctl ℝ)) (hl : ∀ a ∈ l, 0 < a.step ∧ a.step ≤ H)
    (hQ : ∀ e ∈ (run c n x0 l (start c t0 step x0)).st.points, Q e) :
    ∀ e ∈ (run c n x0 l (start c t0 step x0)).st.points,
      nrm (S * n.D) (e.x - x e.t) ≤ nrm (S * n.D) (x0 - x t0) + (M / 2 * H + ε) * (e.t - t0) := by
  have hM0 : 0 ≤ M := (nrm_nonneg _).trans (hM t0 le_rfl)
  have key := run_ok (R := fun h => h ≤ H) (tstart := t0) (x0 := x0)
    (bd := fun e => nrm (S * n.D) (e.x - x e.t) ≤ nrm (S * n.D) (x0 - x t0) + (M / 2 * H + ε) * (e.t - t0))
    (.inl hm) hlen (n := n) (P := fun e => ∃ r, Small S n ε r ∧ HoldsR n r e) (Q := Q) hH ?_ ?_ l hl
    (ok_start (c := c) (tstart := t0) (x0 := x0) h0 h1 (by simp)) hQ
  · exact fun e he => key.bound e (by simp [history, he])
  · rintro e h y _ hh hhH ht ⟨r, hr, d, hd1, hd2⟩ hb
    cases hd1
    have := euler_stepN hp hx hε hh hM ht hr hd2
    simp only at hb ⊢
    have h2 : M / 2 * h ^ 2 ≤ M / 2 * H * h := by
      have : 0 ≤ M / 2 * h * (H - h) := mul_nonneg (by positivity) (by linarith)
      nlinarith
    linarith
  · intro h
    rw [hm] at h
    cases h

/-! ### The last step of Newton's method -/

/-- after a full step the equations hold exactly with the devices replaced by their tangents at the iterate before -/
theorem full_step {p : Newton.Problem ℝ m} {y dx : Fin m → ℝ}
    (h : (p.mna + p.J y) *ᵥ dx = -(p.mna *ᵥ y + p.T + p.Tx y)) :
    p.mna *ᵥ (y + dx) + p.T + p.Tx (y + dx) = p.Tx (y + dx) - p.Tx y - p.J y *ᵥ dx := by
  rw [add_mulVec] at h
  have e : p.mna *ᵥ (y + dx) + p.T + p.Tx (y + dx) = (p.mna *ᵥ dx + p.J y *ᵥ dx) + (p.mna *ᵥ y + p.T + p.Tx y) +
      (p.Tx (y + dx) - p.Tx y - p.J y *ᵥ dx) := by
    rw [mulVec_add]
    abel
  rw [e, h]
  abel

/-- how much the voltages of a point can have changed in the last step: `V` bounds the voltages -/
noncomputable def change (t : Conv.Tol ℝ) (V : ℝ) : ℝ := (t.vea + t.ver * V) / (1 - t.ver)

theorem change_le {t : Conv.Tol ℝ} {V a d : ℝ} (h0 : 0 ≤ t.ver) (h1 : t.ver < 1) (ha : |a| ≤ V) (h : |d| ≤ t.vea + t.ver * |a + d|) :
    |d| ≤ change t V := by
  have h2 : |a + d| ≤ V + |d| := (abs_add_le a d).trans (by linarith)
  have h3 := mul_le_mul_of_nonneg_left h2 h0
  rw [change, le_div_iff₀ (by linarith)]
  linarith

/-- the voltage lock does not shorten the last step -/
def Unlocked (o : Newton.Opts ℝ) (τ : ℝ) : Prop := o.lock = false ∨ (0 < o.lim ∧ 2 * τ ≤ o.lim)

theorem unlocked_td {o : Newton.Opts ℝ} (hd : o.dampFirst = false) {τ : ℝ} (hu : Unlocked o τ) {nn : Nat} (hnn : nn ≤ m)
    {dx : Fin m → ℝ} (hdx : ∀ i : Fin m, i.val < nn → |dx i| ≤ τ) (hτ : 0 ≤ τ) {locked : List (Nat × Nat)}
    (hk : ∀ p ∈ locked, p ≠ (0, 0) ∧ p.1 ≤ nn ∧ p.2 ≤ nn) (it : Int) : Newton.getTd o dx locked it = 1 := by
  cases hl : o.lock with
  | false => simp [Newton.getTd, Newton.tdFirst, hl, hd]
  | true =>
    rcases hu with hu | ⟨h0, hu⟩
    · rw [hl] at hu; cases hu
    refine (Newton.C13_damping_partial o hl hd h0 dx locked it fun p hp => ⟨(hk p hp).1, (hk p hp).2.1.trans hnn,
      (hk p hp).2.2.trans hnn⟩).2.2.2.2 fun p hp => ?_
    have nd : ∀ k ≤ nn, |Newton.nodeDelta dx k| ≤ τ := by
      intro k hk
      unfold Newton.nodeDelta
      split
      · exact hdx _ (by simp only; omega)
      · simpa using hτ
    have := abs_sub (Newton.nodeDelta dx p.1) (Newton.nodeDelta dx p.2)
    have h1 := nd _ (hk p hp).2.1
    have h2 := nd _ (hk p hp).2.2
    unfold Newton.portDelta
    linarith

/-! ### Circuits with devices -/

section circuits
open Verif.Circuit Verif.Mna Verif.Dyn Verif.Rlc Verif.Devices Verif.Conserve

/-- the circuit that the transient analysis solves: `s` is the result of `generate_mna_and_N`, `D` that of `generate_D` -/
noncomputable def netD (m : Nat) (s : Mna.Sys ℝ) (D : Mat ℝ) (nv : Nat) (gmin : ℝ) (law : String → Devices.Law ℝ) (circ : List (Elem ℝ))
    (Tt : ℝ → Fin m → ℝ) : Net ℝ m :=
  { netT m s D nv gmin Tt with
    nonlinear := Newton.isNonlinear circ
    J := matJ gmin law circ
    Tx := vecT law circ
    locked := Newton.lockedNodes circ }

/-- how far the current of a device at `v` is from the tangent of its law at `w` -/
noncomputable def bend (gmin : ℝ) (l : Devices.Law ℝ) (v w : ℝ) : ℝ := l.i v - l.i w - used gmin (l.gm w) * (v - w)

theorem inj_sub' (n1 n2 : Nat) (a b : ℝ) (r : Nat) : inj n1 n2 a r - inj n1 n2 b r = inj n1 n2 (a - b) r := by
  unfold inj
  split <;> split <;> ring

/-- what the tangents miss, at each node -/
theorem bend_rows {nv : Nat} {gmin : ℝ} {law : String → Devices.Law ℝ} {circ : List (Elem ℝ)} (ha : ∀ e ∈ circ, Apart e)
    (he : ∀ e ∈ circ, NodesLt nv e) (hnv : nv ≤ m + 1) (x y : Fin m → ℝ) (i : Fin m) :
    (vecT law circ x - vecT law circ y - matJ gmin law circ y *ᵥ (x - y)) i =
      devSum (fun id n1 n2 => inj n1 n2 (bend gmin (law id) (Rlc.ext x n1 - Rlc.ext x n2) (Rlc.ext y n1 - Rlc.ext y n2)) (i.val + 1)) circ := by
  rw [Pi.sub_apply, Pi.sub_apply, vecT_eq law ha, vecT_eq law ha, matJ_eq gmin law ha he hnv, currents, currents, devSum_sub, devSum_sub]
  refine devSum_congr circ fun id n1 n2 _ _ _ _ => ?_
  rw [inj_sub', inj_sub']
  congr 1
  simp only [bend, ext_sub]
  ring

/-- currents of devices, weighed with node voltages -/
theorem dev_form {nv : Nat} {circ : List (Elem ℝ)} (he : ∀ e ∈ circ, NodesLt nv e) (hm : nv ≤ m + 1) (u : Fin m → ℝ)
    (t : String → Nat → Nat → ℝ) (r : Fin m → ℝ) (hr : ∀ i : Fin m, r i = devSum (fun id n1 n2 => inj n1 n2 (t id n1 n2) (i.val + 1)) circ) :
    u ⬝ᵥ (signs m nv *ᵥ r) = devSum (fun id n1 n2 => (Rlc.ext u n1 - Rlc.ext u n2) * t id n1 n2) circ := by
  have e1 : u ⬝ᵥ (signs m nv *ᵥ r) = ∑ k ∈ Finset.range (m + 1), Rlc.ext u k * devSum (fun id n1 n2 => inj n1 n2 (t id n1 n2) k) circ := by
    rw [Finset.sum_range_succ', Finset.sum_range]
    simp only [Rlc.ext, zero_mul, add_zero, Fin.is_lt, dif_pos, Fin.eta]
    refine Finset.sum_congr rfl fun i _ => ?_
    rw [signs, Matrix.mulVec_diagonal, hr]
    by_cases hi : i.val + 1 < nv
    · rw [sgn, if_pos hi, one_mul]
    · have z : devSum (fun id n1 n2 => inj n1 n2 (t id n1 n2) (i.val + 1)) circ = 0 := by
        rw [← devSum_none circ]
        refine devSum_congr circ fun id n1 n2 _ _ _ hin => ?_
        have := he _ hin
        simp only [NodesLt] at this
        unfold inj
        rw [if_neg (by omega), if_neg (by omega), sub_zero]
      rw [z, mul_zero]
  rw [e1]
  simp only [mul_devSum]
  rw [sum_devSum]
  refine devSum_congr circ fun id n1 n2 _ _ _ hin => ?_
  have := he _ hin
  simp only [NodesLt] at this
  exact sum_inj _ n1 n2 _ (by omega) (by omega)

/-! devices leave nothing in the matrices -/

theorem vdeIndex_lin (key : List Char) (circ : List (Elem ℝ)) (k : Nat) : findVdeIndexAux key circ k = findVdeIndexAux key (lin circ) k := by
  induction circ generalizing k with
  | nil => rfl
  | cons e t ih =>
    rw [lin_cons]
    cases e <;> simp [findVdeIndexAux, Elem.nonlinear, Elem.vde, ih]

theorem findVdeIndex_lin (circ : List (Elem ℝ)) : findVdeIndex circ = findVdeIndex (lin circ) :=
  funext fun id => vdeIndex_lin (upper id) circ 0

theorem generateD_lin (circ : List (Elem ℝ)) (nv S : Nat) (cmin : ℝ) : generateD circ nv S cmin = generateD (lin circ) nv S cmin := by
  unfold generateD
  rw [loop_filter (dStep circ nv) (dStep (lin circ) nv) circ (fun s e _ hn => by cases e <;> simp_all [Elem.nonlinear, dStep, Elem.vde])]
  intro s e _ _
  have : couplings circ nv = couplings (lin circ) nv := by
    funext row id D cd
    unfold couplings
    rw [findVdeIndex_lin]
  unfold dStep
  rw [this]

theorem brSum_lin (f : Nat → Elem ℝ → ℝ) (circ : List (Elem ℝ)) (k : Nat) : brSum f circ k = brSum f (lin circ) k := by
  induction circ generalizing k with
  | nil => rfl
  | cons e t ih =>
    rw [lin_cons]
    cases e <;> simp [brSum, Elem.nonlinear, Elem.vde, ih]

theorem vdes_lin (circ : List (Elem ℝ)) : vdes circ = vdes (lin circ) := by
  induction circ with
  | nil => rfl
  | cons e t ih =>
    rw [lin_cons]
    simp only [vdes] at ih ⊢
    cases e <;> simp [Elem.nonlinear, Elem.vde, List.filter_cons, ih]

theorem magForm_lin (circ : List (Elem ℝ)) (nv : Nat) (x y : Vec ℝ) : magForm circ nv x y = magForm (lin circ) nv x y := by
  unfold magForm
  rw [brSum_lin, brSum_lin (mutForm circ nv x y)]
  congr 2
  funext k e
  cases e <;> simp only [mutForm]
  simp only [mutualTerm, branchOf, vdes_lin circ]

theorem stored_lin (circ : List (Elem ℝ)) (nv : Nat) (cmin : ℝ) (x : Fin m → ℝ) : stored circ nv cmin x = stored (lin circ) nv cmin x := by
  unfold stored
  rw [magForm_lin]
  congr 2
  induction circ with
  | nil => rfl
  | cons e t ih =>
    rw [lin_cons]
    cases e <;> simp [capForm, Elem.nonlinear, ih]

/-- what is assumed of a circuit with devices -/
structure Sound (m nv : Nat) (circ : List (Elem ℝ)) (s : Mna.Sys ℝ) (D : Mat ℝ) (cmin : ℝ) : Prop where
  pos : 0 < nv
  nodes : ∀ e ∈ circ, NodesLt nv e
  parts : ∀ e ∈ circ, Part e
  apart : ∀ e ∈ circ, Apart e
  some : Newton.isNonlinear circ = true
  gen : generate circ nv = .ok s
  size : s.size = m + 1
  genD : generateD circ nv (m + 1) cmin = .ok D

/-- the elements of the circuit take energy -/
structure Takes (nv : Nat) (circ : List (Elem ℝ)) (law : String → Devices.Law ℝ) (cmin gmin : ℝ) : Prop where
  pos : ∀ e ∈ circ, Positive e
  grow : Grow law circ
  cpos : 0 < cmin
  gpos : 0 ≤ gmin
  sym : ∀ x y, magForm circ nv x y = magForm circ nv y x
  mag : ∀ x, 0 ≤ magForm circ nv x x

variable {nv : Nat} {circ : List (Elem ℝ)} {s : Mna.Sys ℝ} {D : Mat ℝ} {cmin gmin : ℝ} {law : String → Devices.Law ℝ}
  {Tt : ℝ → Fin m → ℝ}

theorem lin_nodes (h : Sound m nv circ s D cmin) : ∀ e ∈ lin circ, NodesLt nv e := fun e hm => h.nodes e (List.mem_filter.1 hm).1

theorem lin_linear (h : Sound m nv circ s D cmin) : ∀ e ∈ lin circ, Converge.Linear e := fun e hm => by
  have := lin_two h.parts e hm
  cases e <;> simp_all [Recip.TwoPole, Converge.Linear]

theorem lin_gen (h : Sound m nv circ s D cmin) : generate (lin circ) nv = .ok s := by
  rw [← generate_lin h.parts]
  exact h.gen

theorem lin_genD (h : Sound m nv circ s D cmin) : generateD (lin circ) nv (m + 1) cmin = .ok D := by
  rw [← generateD_lin]
  exact h.genD

theorem sound_size (h : Sound m nv circ s D cmin) : m + 1 = nv + (vdes (lin circ)).length := by
  have := (generate_row (fun _ => 0) (lin_nodes h) (linear_static (lin_linear h)).1 (lin_gen h)).1
  have := h.size
  omega

theorem sound_nrm (h : Sound m nv circ s D cmin) (v : Fin m → ℝ) :
    nrm (signs m nv * (netD m s D nv gmin law circ Tt).D) v = √(stored circ nv cmin v) := by
  rw [stored_lin]
  exact congrArg Real.sqrt (dynamic_form' h.pos (lin_nodes h) (lin_linear h) (sound_size h) (lin_genD h) v v)

theorem sound_lossy (h : Sound m nv circ s D cmin) (ht : Takes nv circ law cmin gmin) :
    LossyN (signs m nv) (netD m s D nv gmin law circ Tt) := by
  have hl := lossy h.pos (lin_nodes h) (lin_linear h) (fun e hm => ht.pos e (List.mem_filter.1 hm).1) (lin_gen h) h.size (lin_genD h)
    ht.cpos.le ht.gpos (fun x y => by rw [← magForm_lin, ← magForm_lin]; exact ht.sym x y)
    (fun x => by rw [← magForm_lin]; exact ht.mag x) Tt
  refine ⟨hl.form, hl.static, fun u v => ?_⟩
  rw [dev_form h.nodes (by have := sound_size h; omega) (u - v)
    (fun id n1 n2 => (law id).i (Rlc.ext u n1 - Rlc.ext u n2) - (law id).i (Rlc.ext v n1 - Rlc.ext v n2))]
  · refine devSum_nonneg circ fun id n1 n2 a b c hin => ?_
    have := mono_mul (ht.grow id n1 n2 a b c hin) (Rlc.ext u n1 - Rlc.ext u n2) (Rlc.ext v n1 - Rlc.ext v n2)
    rw [ext_sub, ext_sub]
    linarith
  · intro i
    show (vecT law circ u - vecT law circ v) i = _
    rw [Pi.sub_apply, vecT_eq law h.apart, vecT_eq law h.apart, currents, currents, devSum_sub]
    exact devSum_congr circ fun id n1 n2 _ _ _ _ => inj_sub' ..

/-- the energy bounds the voltage between two nodes -/
theorem port_bound (ht : Takes nv circ law cmin gmin) (u : Fin m → ℝ) {n1 n2 : Nat} (h1 : n1 < nv)
    (h2 : n2 < nv) (hne : n1 ≠ n2) : |Rlc.ext u n1 - Rlc.ext u n2| ≤ √(2 / cmin) * √(stored circ nv cmin u) := by
  have hc := ht.cpos
  have e1 : cmin * (Rlc.ext u n1 * Rlc.ext u n1 + Rlc.ext u n2 * Rlc.ext u n2) ≤ stored circ nv cmin u := by
    have hs : Rlc.ext u n1 * Rlc.ext u n1 + Rlc.ext u n2 * Rlc.ext u n2 ≤ ∑ r ∈ Finset.range nv, Rlc.ext u r * Rlc.ext u r := by
      rw [← Finset.sum_pair (f := fun r => Rlc.ext u r * Rlc.ext u r) hne]
      refine Finset.sum_le_sum_of_subset_of_nonneg ?_ fun r _ _ => mul_self_nonneg _
      intro r hr
      simp only [Finset.mem_insert, Finset.mem_singleton] at hr
      rcases hr with rfl | rfl <;> simpa
    have hcap : 0 ≤ (circ.map (capForm (Rlc.ext u) (Rlc.ext u))).sum := sum_nonneg' _ _ fun e hm => by
      have := ht.pos e hm
      cases e <;> simp only [capForm, Positive] at this ⊢ <;> try exact le_refl _
      rw [mul_assoc]
      exact mul_nonneg this (mul_self_nonneg _)
    have := mul_le_mul_of_nonneg_left hs hc.le
    have := ht.mag (Rlc.ext u)
    unfold stored
    linarith
  have e2 : 0 ≤ stored circ nv cmin u := le_trans (mul_nonneg hc.le (add_nonneg (mul_self_nonneg _) (mul_self_nonneg _))) e1
  rw [← Real.sqrt_mul (by positivity)]
  refine Real.le_sqrt_of_sq_le ?_
  rw [sq_abs, div_mul_eq_mul_div, le_div_iff₀ hc]
  have : (Rlc.ext u n1 - Rlc.ext u n2) ^ 2 ≤ 2 * (Rlc.ext u n1 * Rlc.ext u n1 + Rlc.ext u n2 * Rlc.ext u n2) := by
    nlinarith [sq_nonneg (Rlc.ext u n1 + Rlc.ext u n2)]
  nlinarith

/-- the ports of the devices are nodes, and not both the reference -/
def Ports (nv : Nat) (circ : List (Elem ℝ)) : Prop := ∀ p ∈ Newton.lockedNodes circ, p ≠ (0, 0) ∧ p.1 < nv ∧ p.2 < nv

/-- the options: no damping of the first iterations, one iteration at least, only the standard method, tolerances in range -/
structure Usual (o : OOpts ℝ) : Prop where
  plain : Plain o
  gmin : o.meth.gmin = false
  src : o.meth.src = false
  vea : 0 ≤ o.tol.vea
  ver : 0 ≤ o.tol.ver
  ver1 : o.tol.ver < 1

/-- what is known of a point: the equations hold at it, exactly, if the current of each device is that of its tangent at a voltage `w`
that differs by at most `2·τ` from the device's voltage -/
def Tangent (n : Net ℝ m) (gmin τ : ℝ) (law : String → Devices.Law ℝ) (circ : List (Elem ℝ)) (e : Entry ℝ m) : Prop :=
  ∃ (w : Nat → Nat → ℝ) (r : Fin m → ℝ), HoldsR n r e ∧
    (∀ i : Fin m, r i = devSum (fun id n1 n2 => inj n1 n2 (bend gmin (law id) (Rlc.ext e.x n1 - Rlc.ext e.x n2) (w n1 n2)) (i.val + 1)) circ) ∧
    ∀ id n1 n2 a b c, Elem.NL id n1 n2 a b c ∈ circ → |Rlc.ext e.x n1 - Rlc.ext e.x n2 - w n1 n2| ≤ 2 * τ

theorem solved_tangent {o : OOpts ℝ} (ho : Usual o) (h : Sound m nv circ s D cmin) (hk : Ports nv circ) {V : ℝ} (hV0 : 0 ≤ V)
    (hu : Unlocked o.newton (change o.tol V)) (f : Formula ℝ m) (t : ℝ) (xs y : Fin m → ℝ)
    (hs : dcSolve o ((netD m s D nv gmin law circ Tt).at f t) (netD m s D nv gmin law circ Tt).gmin (some xs) = .solved y)
    (hV : ∀ i : Fin m, i.val < nv - 1 → |y i| ≤ V) :
    Tangent (netD m s D nv gmin law circ Tt) gmin (change o.tol V) law circ ⟨t, y, some (f.c1 • y + f.c0)⟩ := by
  have hsz := sound_size h
  have hp := h.pos
  have hF := loopX_std o ho.gmin ho.src _ _ _ _ _ _ (stdOnly_next ho.gmin ho.src ⟨rfl, rfl, by rintro y ⟨⟩⟩) hs
  set n := netD m s D nv gmin law circ Tt with hn
  set p := problem (n.at f t) n.gmin .full with hpdef
  obtain ⟨x0, r, h1, hc, rfl⟩ := hF
  have hnl : p.nonlinear = true := h.some
  obtain ⟨-, -, -, y', h2, h3, h4⟩ := Newton.C78_report_exact o.newton o.tol p o.maxit (some x0) r h1
  simp only [hnl, if_true] at h2 h3
  have hτ : 0 ≤ change o.tol V :=
    div_nonneg (add_nonneg ho.vea (mul_nonneg ho.ver hV0)) (by have := ho.ver1; linarith)
  have hdx : ∀ i : Fin m, i.val < nv - 1 → |r.dx i| ≤ change o.tol V := by
    intro i hi
    have := Newton.C78_converged_within_tolerance o.newton o.tol p hnl o.maxit (some x0) r h1 hc i
    have e : p.nv - 1 = nv - 1 := by
      show nv - 1 + 1 - 1 = _
      omega
    rw [e, if_pos hi] at this
    exact change_le ho.ver ho.ver1 (hV i hi) this.1
  have htd : Newton.getTd o.newton r.dx p.locked (r.iteration : Int) = 1 :=
    unlocked_td ho.plain.damp hu (nn := nv - 1) (by omega) hdx hτ (fun q hq => by
      have := hk q hq
      exact ⟨this.1, by omega, by omega⟩) _
  rw [htd, one_smul] at h4
  rw [h2] at h3
  have h5 := full_step h3
  rw [← h4] at h5
  have hd : r.dx = r.x - y' := by rw [h4]; abel
  refine ⟨fun n1 n2 => Rlc.ext y' n1 - Rlc.ext y' n2, p.mna *ᵥ r.x + p.T + p.Tx r.x, ⟨_, rfl, ?_⟩, fun i => ?_, ?_⟩
  · simp only [hpdef, problem, Net.at, add_mulVec, smul_mulVec, Matrix.mulVec_add, mulVec_smul]
    abel
  · rw [h5, hd]
    exact bend_rows h.apart h.nodes (by omega) r.x y' i
  · intro id n1 n2 a b c hin
    have hlt := h.nodes _ hin
    simp only [NodesLt] at hlt
    have ex : ∀ k < nv, |Rlc.ext r.dx k| ≤ change o.tol V := by
      intro k hk
      cases k with
      | zero => simpa [Rlc.ext] using hτ
      | succ k =>
        have : k < m := by omega
        simp only [Rlc.ext, this, dif_pos]
        exact hdx _ (by simp only; omega)
    have e : Rlc.ext r.x n1 - Rlc.ext r.x n2 - (Rlc.ext y' n1 - Rlc.ext y' n2) = Rlc.ext r.dx n1 - Rlc.ext r.dx n2 := by
      rw [hd, ext_sub, ext_sub]
      ring
    have := abs_sub (Rlc.ext r.dx n1) (Rlc.ext r.dx n2)
    have := ex n1 (by omega)
    have := ex n2 (by omega)
    show |Rlc.ext r.x n1 - Rlc.ext r.x n2 - (Rlc.ext y' n1 - Rlc.ext y' n2)| ≤ _
    rw [e]
    linarith

/-- a property of all points that the solver finds is one of all points recorded -/
theorem run_points {c : Cfg ℝ} {n : Net ℝ m} {P : Entry ℝ m → Prop}
    (hH : ∀ (f : Formula ℝ m) (t : ℝ) (xs y : Fin m → ℝ), dcSolve c.o (n.at f t) n.gmin (some xs) = .solved y →
      P ⟨t, y, some (f.c1 • y + f.c0)⟩) (x0 : Fin m → ℝ) (l : List (Ctl ℝ)) (st : St ℝ m) (hs : ∀ e ∈ st.points, P e) :
    ∀ e ∈ (run c n x0 l st).st.points, P e := by
  induction l generalizing st with
  | nil => exact hs
  | cons a r ih =>
    unfold run
    rcases hp : pass c n x0 st a with s' | s' | s'
    · refine ih s' ?_
      rcases pass_cases hp with ⟨_, rfl⟩ | ⟨f, x1, -, hx, _, rfl⟩
      · exact hs
      · intro e he
        rcases List.mem_append.mp he with he | he
        · exact hs e he
        · rw [List.mem_singleton.mp he]
          exact hH f _ _ x1 hx
    all_goals
      have : s' = st := by
        unfold pass at hp
        split at hp
        · cases hp <;> rfl
        · split at hp
          · cases a <;> cases hp
          · split at hp
            · cases a <;> cases hp
            · cases hp <;> rfl
          · cases hp <;> rfl
      subst this; exact hs

/-- C185: every point of a transient analysis, with any method and any choice of steps, whose voltages are at most `V`: the equations
of the circuit hold at it exactly, if each device carries the current of the tangent of its law at a voltage at most `2·τ` away, where
`τ = (vea + ver·V)/(1 − ver)`. -/
theorem C185_points {c : Cfg ℝ} (ho : Usual c.o) (h : Sound m nv circ s D cmin) (hk : Ports nv circ) {V : ℝ} (hV0 : 0 ≤ V)
    (hu : Unlocked c.o.newton (change c.o.tol V)) (tstart step : ℝ) (x0 : Fin m → ℝ) (l : List (Ctl ℝ)) :
    ∀ e ∈ (run c (netD m s D nv gmin law circ Tt) x0 l (start c tstart step x0)).st.points,
      (∀ i : Fin m, i.val < nv - 1 → |e.x i| ≤ V) →
        Tangent (netD m s D nv gmin law circ Tt) gmin (change c.o.tol V) law circ e :=
  run_points (P := fun e => (∀ i : Fin m, i.val < nv - 1 → |e.x i| ≤ V) →
      Tangent (netD m s D nv gmin law circ Tt) gmin (change c.o.tol V) law circ e)
    (fun f t xs y hs hV => solved_tangent ho h hk hV0 hu f t xs y hs hV) x0 l _ (by simp [start])

/-- C185, implicit Euler for circuits of resistors, capacitors, inductors, independent sources and two-terminal devices whose current
grows with the voltage. `M` bounds the square root of the energy of the second derivative of the solution, `V` the voltages found, and
`δ` how far the law of a device bends within `2·τ`: the energy of the error grows at most by `M/2·H + √(2/cmin)·∑δ` per unit of time. -/
theorem C185_euler {c : Cfg ℝ} (hme : c.meth = .euler) (hlen : 0 < c.len) (ho : Usual c.o) (h : Sound m nv circ s D cmin)
    (ht : Takes nv circ law cmin gmin) (hk : Ports nv circ) {V : ℝ} (hV0 : 0 ≤ V) (hu : Unlocked c.o.newton (change c.o.tol V))
    {x x1 x2 : ℝ → Fin m → ℝ} {t0 : ℝ} (hx : SolvesN (netD m s D nv gmin law circ Tt) t0 x x1 x2)
    {M H : ℝ} (hM : ∀ t, t0 ≤ t → √(stored circ nv cmin (x2 t)) ≤ M) {δ : String → ℝ}
    (hδ : ∀ id n1 n2 a b d, Elem.NL id n1 n2 a b d ∈ circ → ∀ v w, |v| ≤ 2 * V → |v - w| ≤ 2 * change c.o.tol V →
      |bend gmin (law id) v w| ≤ δ id)
    {step : ℝ} (h0 : 0 < step) (h1 : step ≤ H) (x0 : Fin m → ℝ) (l : List (Ctl ℝ)) (hl : ∀ a ∈ l, 0 < a.step ∧ a.step ≤ H)
    (hV : ∀ e ∈ (run c (netD m s D nv gmin law circ Tt) x0 l (start c t0 step x0)).st.points,
      ∀ i : Fin m, i.val < nv - 1 → |e.x i| ≤ V) :
    ∀ e ∈ (run c (netD m s D nv gmin law circ Tt) x0 l (start c t0 step x0)).st.points,
      √(stored circ nv cmin (e.x - x e.t)) ≤ √(stored circ nv cmin (x0 - x t0)) +
        (M / 2 * H + √(2 / cmin) * devSum (fun id _ _ => δ id) circ) * (e.t - t0) := by
  have hτ : 0 ≤ change c.o.tol V :=
    div_nonneg (add_nonneg ho.vea (mul_nonneg ho.ver hV0)) (by have := ho.ver1; linarith)
  have hδ0 : ∀ id n1 n2 a b d, Elem.NL id n1 n2 a b d ∈ circ → 0 ≤ δ id := fun id n1 n2 a b d hin =>
    (abs_nonneg _).trans (hδ id n1 n2 a b d hin 0 0 (by simpa using hV0) (by simpa using hτ))
  have hε : 0 ≤ √(2 / cmin) * devSum (fun id _ _ => δ id) circ :=
    mul_nonneg (Real.sqrt_nonneg _) (devSum_nonneg circ hδ0)
  have hsz := sound_size h
  have hS := sound_nrm (gmin := gmin) (law := law) (Tt := Tt) h
  intro e hin
  have := euler_run (S := signs m nv) (n := netD m s D nv gmin law circ Tt) hme hlen (sound_lossy h ht) hx hε (M := M) (H := H)
    (fun t ht => by rw [hS]; exact hM t ht) (Q := fun e => ∀ i : Fin m, i.val < nv - 1 → |e.x i| ≤ V) ?_ h0 h1 x0 l hl hV e hin
  · simpa only [hS] using this
  · intro f t xs y _ hs hVy
    obtain ⟨w, r, hr, hrows, hw⟩ := solved_tangent (V := V) ho h hk hV0 hu f t xs y hs hVy
    refine ⟨r, fun u => ?_, hr⟩
    rw [hS, dev_form h.nodes (by omega) u _ r hrows, mul_right_comm, mul_devSum]
    unfold devSum
    refine List.sum_le_sum fun el hel => ?_
    cases el with
    | NL id n1 n2 a b d =>
      have hlt := h.nodes _ hel
      have hap := h.apart _ hel
      simp only [NodesLt] at hlt
      have pb := port_bound ht u (n1 := n1) (n2 := n2) (by omega) (by omega) hap
      have ey : ∀ k < nv, |Rlc.ext y k| ≤ V := by
        intro k hk
        cases k with
        | zero => simpa [Rlc.ext] using hV0
        | succ k =>
          have : k < m := by omega
          simp only [Rlc.ext, this, dif_pos]
          exact hVy _ (by simp only; omega)
      have bd := hδ id n1 n2 a b d hel (Rlc.ext y n1 - Rlc.ext y n2) (w n1 n2) (by
        have := abs_sub (Rlc.ext y n1) (Rlc.ext y n2)
        have := ey n1 (by omega)
        have := ey n2 (by omega)
        linarith) (hw id n1 n2 a b d hel)
      simp only [devTerm]
      refine (le_abs_self _).trans ?_
      rw [abs_mul]
      exact mul_le_mul pb bd (abs_nonneg _) (by positivity)
    | _ => simp [devTerm]

/-- C185: without sources. If the circuit is at rest with all voltages zero, the energy stored grows at most by what the devices bend
within the tolerance: capacitors and inductors are not charged by the analysis. -/
theorem C185_rest {c : Cfg ℝ} (hme : c.meth = .euler) (hlen : 0 < c.len) (ho : Usual c.o) (h : Sound m nv circ s D cmin)
    (ht : Takes nv circ law cmin gmin) (hk : Ports nv circ) {V : ℝ} (hV0 : 0 ≤ V) (hu : Unlocked c.o.newton (change c.o.tol V))
    (hN : ∀ t i, s.N (i.val + 1) + Tt t i = 0) (hi : ∀ id n1 n2 a b d, Elem.NL id n1 n2 a b d ∈ circ → (law id).i 0 = 0)
    {δ : String → ℝ}
    (hδ : ∀ id n1 n2 a b d, Elem.NL id n1 n2 a b d ∈ circ → ∀ v w, |v| ≤ 2 * V → |v - w| ≤ 2 * change c.o.tol V →
      |bend gmin (law id) v w| ≤ δ id)
    {step t0 : ℝ} (h0 : 0 < step) (x0 : Fin m → ℝ) (l : List (Ctl ℝ)) (hl : ∀ a ∈ l, 0 < a.step)
    (hV : ∀ e ∈ (run c (netD m s D nv gmin law circ Tt) x0 l (start c t0 step x0)).st.points,
      ∀ i : Fin m, i.val < nv - 1 → |e.x i| ≤ V) :
    ∀ e ∈ (run c (netD m s D nv gmin law circ Tt) x0 l (start c t0 step x0)).st.points,
      √(stored circ nv cmin e.x) ≤ √(stored circ nv cmin x0) + √(2 / cmin) * devSum (fun id _ _ => δ id) circ * (e.t - t0) := by
  have z : √(stored circ nv cmin (0 : Fin m → ℝ)) = 0 := by
    rw [← sound_nrm (gmin := gmin) (law := law) (Tt := Tt) h, nrm, Matrix.mulVec_zero, dotProduct_zero, Real.sqrt_zero]
  obtain ⟨H, hH⟩ : ∃ H, step ≤ H ∧ ∀ a ∈ l, a.step ≤ H := by
    clear hV hl
    induction l with
    | nil => exact ⟨step, le_rfl, by simp⟩
    | cons a r ih =>
      obtain ⟨H, h1, h2⟩ := ih
      refine ⟨max a.step H, h1.trans (le_max_right ..), fun b hb => ?_⟩
      rcases List.mem_cons.1 hb with rfl | hb
      · exact le_max_left ..
      · exact (h2 b hb).trans (le_max_right ..)
  have hx : SolvesN (netD m s D nv gmin law circ Tt) t0 (fun _ => 0) (fun _ => 0) (fun _ => 0) := by
    refine ⟨fun t i => hasDerivAt_const .., fun t i => hasDerivAt_const .., fun t _ => ?_⟩
    funext i
    have e1 : vecT law circ (0 : Fin m → ℝ) i = 0 := by
      rw [vecT_eq law h.apart, currents, ← devSum_none circ]
      refine devSum_congr circ fun id n1 n2 a b d hin => ?_
      have : ∀ k, Rlc.ext (0 : Fin m → ℝ) k = 0 := fun k => by cases k <;> simp [Rlc.ext]
      rw [this, this, sub_zero, hi id n1 n2 a b d hin]
      simp [inj]
    simp only [Matrix.mulVec_zero, Pi.add_apply, Pi.zero_apply, zero_add]
    show s.N (i.val + 1) + Tt t i + vecT law circ 0 i = 0
    rw [e1, hN, add_zero]
  intro e he
  have := C185_euler hme hlen ho h ht hk hV0 hu hx (M := 0) (H := H) (fun t _ => by rw [z]) hδ h0 hH.1 x0 l
    (fun a ha => ⟨hl a ha, hH.2 a ha⟩) hV e he
  simpa using this

/-- how far a smooth law bends: the conductance is the derivative of the current, and changes by at most `B` per volt -/
theorem C185_smooth {l : Devices.Law ℝ} {V τ B : ℝ} (hB : 0 ≤ B) (hd : ∀ v, |v| ≤ V + τ → HasDerivAt l.i (l.gm v) v)
    (hne : ∀ v, |v| ≤ V + τ → l.gm v ≠ 0) (hL : ∀ v w, |v| ≤ V + τ → |w| ≤ V + τ → |l.gm v - l.gm w| ≤ B * |v - w|) :
    ∀ v w, |v| ≤ V → |v - w| ≤ τ → |bend gmin l v w| ≤ B * τ ^ 2 := by
  intro v w hv hw
  have hτ : 0 ≤ τ := (abs_nonneg _).trans hw
  have hv' : |v| ≤ V + τ := by linarith
  have hw' : |w| ≤ V + τ := by
    have := abs_sub_abs_le_abs_sub w v
    rw [abs_sub_comm] at this
    linarith
  have seg : ∀ z ∈ Set.uIcc w v, |z| ≤ V + τ := by
    intro z hz
    rw [Set.mem_uIcc] at hz
    rw [abs_le] at hv' hw' ⊢
    rcases hz with hz | hz <;> constructor <;> linarith
  have key : |bend gmin l v w| ≤ B * τ * |v - w| := by
    rw [bend, used, if_neg (hne w hw')]
    have hg : ∀ z ∈ Set.uIcc w v, HasDerivWithinAt (fun z => l.i z - l.gm w * z) (l.gm z - l.gm w) (Set.uIcc w v) z := fun z hz =>
      (((hd z (seg z hz)).sub ((hasDerivAt_id' z).const_mul (l.gm w))).congr_deriv (by ring)).hasDerivWithinAt
    have := (convex_uIcc w v).norm_image_sub_le_of_norm_hasDerivWithin_le (C := B * τ) hg (fun z hz => by
      rw [Real.norm_eq_abs]
      refine (hL z w (seg z hz) hw').trans (mul_le_mul_of_nonneg_left ?_ hB)
      refine le_trans ?_ hw
      rw [abs_sub_comm v w]
      have := Set.abs_sub_left_of_mem_uIcc hz
      rw [abs_sub_comm w v]
      exact this) Set.left_mem_uIcc Set.right_mem_uIcc
    rw [Real.norm_eq_abs, Real.norm_eq_abs] at this
    refine le_of_eq_of_le ?_ this
    congr 1
    ring
  refine key.trans ?_
  have := mul_le_mul_of_nonneg_left hw (mul_nonneg hB hτ)
  nlinarith

/-- C185: diodes are such devices, with and without series resistance -/
theorem C185_diodes (hl : ∀ id n1 n2 a b c, Elem.NL id n1 n2 a b c ∈ circ → ∃ dm area, IsDiode gmin (law id) dm area) : Grow law circ :=
  fun id n1 n2 a b c hin => by
    obtain ⟨dm, area, hd⟩ := hl id n1 n2 a b c hin
    exact hd.strictMono.monotone

/-! ### An example: a capacitor and a device with `i = v + v³` at a source -/

noncomputable def cubic : String → Devices.Law ℝ := fun _ => ⟨fun v => v + v ^ 3, fun v => 1 + 3 * v ^ 2⟩

def store : List (Elem ℝ) := [.I "I1" 0 1 ⟨none, none, true, none⟩, .C "C1" 1 0 1 none, .NL "D1" 1 0 none [(1, 0)] [(1, 0)]]

noncomputable def sysD (circ : List (Elem ℝ)) (nv S : Nat) (cmin : ℝ) : Mat ℝ :=
  match generateD circ nv S cmin with
  | .ok D => D
  | .error _ => fun _ _ => 0

/-- the current of the source for which the voltage is `sin t` -/
noncomputable def drive (t : ℝ) : Fin 1 → ℝ := fun _ => -(2 * Real.cos t + Real.sin t + Real.sin t ^ 3)

theorem store_sound : Sound 1 2 store (sysR store 2) (sysD store 2 2 1) 1 where
  pos := by norm_num
  nodes := by simp [store, NodesLt]
  parts := by simp [store, Devices.Part, Recip.TwoPole, Elem.nonlinear]
  apart := by simp [store, Apart]
  some := rfl
  gen := rfl
  size := rfl
  genD := rfl

theorem cubic_grow : Grow cubic store := fun _ _ _ _ _ _ _ v w h => by
  show v + v ^ 3 ≤ w + w ^ 3
  have : v ^ 3 ≤ w ^ 3 := (Odd.strictMono_pow (by decide : Odd 3)).monotone h
  linarith

theorem store_takes : Takes 2 store cubic 1 0 where
  pos := by simp [store, Positive]
  grow := cubic_grow
  cpos := one_pos
  gpos := le_rfl
  sym := by simp [store, magForm, brSum, Elem.vde]
  mag := by simp [store, magForm, brSum, Elem.vde]

theorem store_ports : Ports 2 store := by
  simp [Ports, store, Newton.lockedNodes]

theorem store_solves : SolvesN (netD 1 (sysR store 2) (sysD store 2 2 1) 2 0 cubic store drive) 0 (fun t => ![Real.sin t])
    (fun t => ![Real.cos t]) (fun t => ![-Real.sin t]) := by
  refine ⟨fun t i => ?_, fun t i => ?_, fun t _ => ?_⟩
  · fin_cases i
    exact Real.hasDerivAt_sin t
  · fin_cases i
    exact Real.hasDerivAt_cos t
  · funext i
    fin_cases i
    have e1 : vecT cubic store ![Real.sin t] 0 = Real.sin t + Real.sin t ^ 3 := by
      rw [vecT_eq cubic store_sound.apart]
      simp [currents, devSum, store, devTerm, inj, cubic, Rlc.ext]
    have e2 : (sysR store 2).M 1 1 = 0 := by
      simp [sysR, store, generate, Mna.loop, stamp1, stamp2, stamp3]
    have e3 : (sysR store 2).N 1 = 0 := by
      simp [sysR, store, generate, Mna.loop, stamp1, stamp2, stamp3]
    have e4 : sysD store 2 2 1 1 1 = 2 := by
      simp [sysD, store, generateD, Mna.loop, dStep, Mat.add, Mat.put, cminMat, Elem.vde]
      norm_num
    have e5 : gminMat (m := 1) 1 (0 : ℝ) = 0 := by ext i j; fin_cases i; fin_cases j; simp [gminMat]
    show ((reduce 1 (sysR store 2).M) *ᵥ ![Real.sin t]) 0 + ((gminMat (m := 1) 1 (0 : ℝ)) *ᵥ ![Real.sin t]) 0 +
      ((reduce 1 (sysD store 2 2 1)) *ᵥ ![Real.cos t]) 0 + (sysR store 2).N 1 + drive t 0 + vecT cubic store ![Real.sin t] 0 = 0
    rw [e1, e3, e5]
    simp [Matrix.mulVec, dotProduct, reduce, e2, e4, drive]
    ring

/-- implicit Euler with steps of at most `H`, as long as the voltages stay below 2 V -/
example {c : Cfg ℝ} (hme : c.meth = .euler) (hlen : 0 < c.len) (ho : Usual c.o) (hlock : c.o.newton.lock = false)
    (hvea : c.o.tol.vea = 1 / 1000000) (hver : c.o.tol.ver = 0) {H step : ℝ} (h0 : 0 < step) (h1 : step ≤ H) (l : List (Ctl ℝ))
    (hl : ∀ a ∈ l, 0 < a.step ∧ a.step ≤ H)
    (hV : ∀ e ∈ (run c (netD 1 (sysR store 2) (sysD store 2 2 1) 2 0 cubic store drive) ![0] l (start c 0 step ![0])).st.points,
      ∀ i : Fin 1, i.val < 2 - 1 → |e.x i| ≤ 2) :
    ∀ e ∈ (run c (netD 1 (sysR store 2) (sysD store 2 2 1) 2 0 cubic store drive) ![0] l (start c 0 step ![0])).st.points,
      √2 * |e.x 0 - Real.sin e.t| ≤ (√2 / 2 * H + √2 / 10 ^ 9) * e.t := by
  have st : ∀ v : Fin 1 → ℝ, √(stored store 2 1 v) = √2 * |v 0| := by
    intro v
    have : stored store 2 1 v = 2 * v 0 ^ 2 := by
      simp [stored, store, capForm, Rlc.ext, magForm, brSum, Elem.vde, Finset.sum_range_succ]
      ring
    rw [this, Real.sqrt_mul (by norm_num), Real.sqrt_sq_eq_abs]
  have ch : change c.o.tol 2 = 1 / 1000000 := by simp [change, hvea, hver]
  intro e he
  have := C185_euler hme hlen ho store_sound store_takes store_ports (V := 2) (by norm_num) (.inl hlock) store_solves (M := √2) (H := H)
    (fun t _ => by
      rw [st]
      have := Real.abs_sin_le_one t
      have h2 : 0 ≤ √2 := Real.sqrt_nonneg 2
      simp only [Matrix.cons_val_zero, abs_neg]
      nlinarith) (δ := fun _ => 1 / 10 ^ 9) (by
      intro id n1 n2 a b d _ v w hv hw
      rw [ch] at hw
      have e1 : bend 0 (cubic id) v w = (v - w) ^ 2 * (v + 2 * w) := by
        have : (1 + 3 * w ^ 2 : ℝ) ≠ 0 := by positivity
        have u : used 0 (1 + 3 * w ^ 2) = 1 + 3 * w ^ 2 := if_neg this
        simp only [bend, cubic, u]
        ring
      rw [e1, abs_mul, abs_pow]
      have hw2 : |v + 2 * w| ≤ 100 := by
        rw [abs_le] at hv hw ⊢
        constructor <;> linarith
      have hsq : |v - w| ^ 2 ≤ (2 * (1 / 1000000)) ^ 2 := pow_le_pow_left₀ (abs_nonneg _) hw 2
      calc |v - w| ^ 2 * |v + 2 * w| ≤ (2 * (1 / 1000000)) ^ 2 * 100 := mul_le_mul hsq hw2 (abs_nonneg _) (by positivity)
        _ ≤ 1 / 10 ^ 9 := by norm_num) h0 h1 ![0] l hl hV e he
  rw [st, st] at this
  simp [devSum, store, devTerm] at this
  simpa [div_eq_mul_inv] using this

end circuits

end Verif.Nonlin
