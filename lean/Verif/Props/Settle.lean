import Verif.Props.Super
import Verif.Props.Converge

/-!
C189: transients of one circuit with the same sources approach each other, whatever they start from.
-/

namespace Verif.Settle
open Verif.Op Verif.Tran Verif.Super Verif.Converge Matrix

variable {m : Nat} {S : Matrix (Fin m) (Fin m) ℝ} {n : Net ℝ m}

/-- the circuit with its sources at zero -/
def quiet (n : Net ℝ m) : Net ℝ m := { n with N := 0, Tt := fun _ => 0 }

theorem quiet_sources (n : Net ℝ m) : Sources 1 (-1) n n (quiet n) :=
  ⟨⟨rfl, rfl⟩, ⟨rfl, rfl⟩, ⟨rfl, rfl⟩, ⟨rfl, rfl⟩, fun t => by funext i; simp [quiet]; ring⟩

/-- C189, the equations: the energy of the difference of two transients never increases. -/
theorem C189_net {c : Cfg ℝ} (hm : c.meth = .euler ∨ c.meth = .trap) (hlen : 0 < c.len) (ho : Op.Plain c.o) (ha : AllMeth c.o) (hl : Lin n)
    (hp : PassiveNet S (quiet n)) (tstart : ℝ) {step : ℝ} (hst : 0 < step) (x1 x2 : Fin m → ℝ) (l : List (Ctl ℝ))
    (hs : ∀ a ∈ l, 0 < a.step) :
    let p1 := (run c n x1 l (start c tstart step x1)).st.points
    let p2 := (run c n x2 l (start c tstart step x2)).st.points
    p2.length = p1.length ∧ ∀ (k : Nat) (e1 e2 : Entry ℝ m), p1[k]? = some e1 → p2[k]? = some e2 →
      e2.t = e1.t ∧ energy S n (e1.x - e2.x) ≤ energy S n (x1 - x2) ∧
      ∀ (j : Nat) (f1 f2 : Entry ℝ m), k ≤ j → p1[j]? = some f1 → p2[j]? = some f2 →
        energy S n (f1.x - f2.x) ≤ energy S n (e1.x - e2.x) := by
  intro p1 p2
  obtain ⟨l1, l3, hc⟩ := C159_transient ho ha hl hl (n3 := quiet n) ⟨hl.1, hl.2⟩ (quiet_sources n) tstart step x1 x2 l
  have x3 : (1 : ℝ) • x1 + (-1 : ℝ) • x2 = x1 - x2 := by funext i; simp [sub_eq_add_neg]
  rw [x3] at l3 hc
  have hE := C124_energy c hm hlen ho S (quiet n) hp tstart step hst (x1 - x2) l hs
  set p3 := (run c (quiet n) (x1 - x2) l (start c tstart step (x1 - x2))).st.points with hp3
  rw [history, List.pairwise_append, List.pairwise_reverse] at hE
  obtain ⟨q1, -, q3⟩ := hE
  have at3 : ∀ (k : Nat) (e1 e2 : Entry ℝ m), p1[k]? = some e1 → p2[k]? = some e2 →
      ∃ e3, p3[k]? = some e3 ∧ e2.t = e1.t ∧ e3.x = e1.x - e2.x := by
    intro k e1 e2 h1 h2
    have hk : k < p3.length := by rw [l3]; exact (List.getElem?_eq_some_iff.1 h1).1
    obtain ⟨a, -, b⟩ := hc k e1 e2 p3[k] h1 h2 (List.getElem?_eq_getElem hk)
    exact ⟨p3[k], List.getElem?_eq_getElem hk, a, by funext i; rw [b i, Pi.sub_apply]; ring⟩
  refine ⟨l1, fun k e1 e2 h1 h2 => ?_⟩
  obtain ⟨e3, h3, ht, hx⟩ := at3 k e1 e2 h1 h2
  refine ⟨ht, ?_, fun j f1 f2 hkj h1' h2' => ?_⟩
  · rw [← hx]
    exact q3 e3 (List.mem_reverse.2 (List.mem_of_getElem? h3)) ⟨tstart, x1 - x2, none⟩ (by simp)
  · obtain ⟨f3, h3', -, hx'⟩ := at3 j f1 f2 h1' h2'
    rw [← hx, ← hx']
    rcases Nat.eq_or_lt_of_le hkj with rfl | hlt
    · rw [h3] at h3'
      cases h3'
      exact le_refl _
    · have hj := (List.getElem?_eq_some_iff.1 h3')
      have hk := (List.getElem?_eq_some_iff.1 h3)
      obtain ⟨hj1, hj2⟩ := hj
      obtain ⟨hk1, hk2⟩ := hk
      have := List.pairwise_iff_getElem.1 q1 k j hk1 hj1 hlt
      rw [hj2, hk2] at this
      exact this

/-! ### The difference fades -/

/-- one step of implicit Euler, where what is lost is at least `α` times what is stored -/
theorem fade_step {B A : Matrix (Fin m) (Fin m) ℝ} (hB : Form B) {α h : ℝ} (hh : 0 < h)
    (hA : ∀ v, α * (v ⬝ᵥ (B *ᵥ v)) ≤ v ⬝ᵥ (A *ᵥ v)) {y0 y1 : Fin m → ℝ}
    (e : y1 ⬝ᵥ (A *ᵥ y1) + y1 ⬝ᵥ (B *ᵥ ((1 / h) • (y1 - y0))) = 0) : nrm B y1 * (1 + α * h) ≤ nrm B y0 := by
  have h1 := hA y1
  rw [mulVec_smul, dotProduct_smul, smul_eq_mul, mulVec_sub, dotProduct_sub] at e
  rw [← nrm_sq hB] at h1 e
  have h0 := (abs_le.1 (cauchy hB y1 y0)).2
  have e2 : nrm B y1 ^ 2 * (1 + α * h) ≤ nrm B y1 * nrm B y0 := by
    have h2 : h * (y1 ⬝ᵥ (A *ᵥ y1)) + (nrm B y1 ^ 2 - y1 ⬝ᵥ (B *ᵥ y0)) = 0 := by
      have := congrArg (h * ·) e
      simp only [mul_zero] at this
      rw [← this]
      field_simp
    nlinarith
  rcases (nrm_nonneg (B := B) y1).eq_or_lt with hz | hz
  · rw [← hz, zero_mul]
    exact nrm_nonneg _
  · have : nrm B y1 * (nrm B y1 * (1 + α * h)) ≤ nrm B y1 * nrm B y0 := by nlinarith
    exact le_of_mul_le_mul_left this hz

/-- without sources, with implicit Euler and any steps, what is stored fades at least like `1/(1 + α t)` -/
theorem fade_run {c : Cfg ℝ} (hm : c.meth = .euler) (hlen : 0 < c.len) (hd : Direct c.o (quiet n)) (hl : Lin n) {α : ℝ} (hα : 0 ≤ α)
    (hB : Form (S * n.D)) (hA : ∀ v, α * (v ⬝ᵥ ((S * n.D) *ᵥ v)) ≤ v ⬝ᵥ ((S * (n.mna + gminMat n.nn n.gmin)) *ᵥ v))
    (tstart : ℝ) {step : ℝ} (hst : 0 < step) (x0 : Fin m → ℝ) (l : List (Ctl ℝ)) (hs : ∀ a ∈ l, 0 < a.step) :
    ∀ e ∈ (run c (quiet n) x0 l (start c tstart step x0)).st.points,
      nrm (S * n.D) e.x * (1 + α * (e.t - tstart)) ≤ nrm (S * n.D) x0 := by
  have key := run_ok (R := fun _ => True) (tstart := tstart) (x0 := x0)
    (bd := fun e => nrm (S * n.D) e.x * (1 + α * (e.t - tstart)) ≤ nrm (S * n.D) x0)
    (.inl hm) hlen (n := quiet n) (P := Holds (quiet n)) (Q := fun _ => True)
    (fun f t xs y h h' _ => direct_holds hd hl.1 hl.2 f t xs y h h') ?_ ?_ l (fun a ha => ⟨hs a ha, trivial⟩)
    (ok_start (c := c) (tstart := tstart) (x0 := x0) hst trivial (by simp)) fun _ _ => trivial
  · exact fun e he => key.bound e (by simp [history, he])
  · intro e h y _ hh _ ht ⟨d, hd1, hd2⟩ hb
    cases hd1
    have e1 : y ⬝ᵥ ((S * (n.mna + gminMat n.nn n.gmin)) *ᵥ y) + y ⬝ᵥ ((S * n.D) *ᵥ ((1 / h) • (y - e.x))) = 0 := by
      rw [← dotProduct_add, ← mulVec_mulVec, ← mulVec_mulVec, ← mulVec_add, add_mulVec]
      simp only [quiet, add_zero] at hd2
      rw [hd2, mulVec_zero, dotProduct_zero]
    have h1 := fade_step hB hh hA e1
    simp only at hb ⊢
    have h2 : 0 ≤ 1 + α * (e.t - tstart) := by
      have := mul_nonneg hα (sub_nonneg.2 ht)
      linarith
    have h3 : 1 + α * (e.t + h - tstart) ≤ (1 + α * h) * (1 + α * (e.t - tstart)) := by
      have := mul_nonneg (mul_nonneg hα hh.le) (mul_nonneg hα (sub_nonneg.2 ht))
      nlinarith
    calc nrm (S * n.D) y * (1 + α * (e.t + h - tstart)) ≤ nrm (S * n.D) y * ((1 + α * h) * (1 + α * (e.t - tstart))) :=
          mul_le_mul_of_nonneg_left h3 (nrm_nonneg _)
      _ = nrm (S * n.D) y * (1 + α * h) * (1 + α * (e.t - tstart)) := by ring
      _ ≤ nrm (S * n.D) e.x * (1 + α * (e.t - tstart)) := mul_le_mul_of_nonneg_right h1 h2
      _ ≤ _ := hb
  · intro h
    rw [hm] at h
    cases h

/-- C189, the equations: with implicit Euler the difference of two transients fades, where losses are proportional to what is stored. -/
theorem C189_fade {c : Cfg ℝ} (hm : c.meth = .euler) (hlen : 0 < c.len) (ho : Op.Plain c.o) (ha : AllMeth c.o) (hl : Lin n)
    (hd : ∀ a : ℝ, 0 < a → (n.mna + a • n.D + gminMat n.nn n.gmin).det ≠ 0) {α : ℝ} (hα : 0 ≤ α)
    (hB : Form (S * n.D)) (hA : ∀ v, α * (v ⬝ᵥ ((S * n.D) *ᵥ v)) ≤ v ⬝ᵥ ((S * (n.mna + gminMat n.nn n.gmin)) *ᵥ v))
    (tstart : ℝ) {step : ℝ} (hst : 0 < step) (x1 x2 : Fin m → ℝ) (l : List (Ctl ℝ)) (hs : ∀ a ∈ l, 0 < a.step) :
    let p1 := (run c n x1 l (start c tstart step x1)).st.points
    let p2 := (run c n x2 l (start c tstart step x2)).st.points
    p2.length = p1.length ∧ ∀ (k : Nat) (e1 e2 : Entry ℝ m), p1[k]? = some e1 → p2[k]? = some e2 →
      e2.t = e1.t ∧ nrm (S * n.D) (e1.x - e2.x) * (1 + α * (e1.t - tstart)) ≤ nrm (S * n.D) (x1 - x2) := by
  intro p1 p2
  obtain ⟨l1, l3, hc⟩ := C159_transient ho ha hl hl (n3 := quiet n) ⟨hl.1, hl.2⟩ (quiet_sources n) tstart step x1 x2 l
  have x3 : (1 : ℝ) • x1 + (-1 : ℝ) • x2 = x1 - x2 := by funext i; simp [sub_eq_add_neg]
  rw [x3] at l3 hc
  have hF := fade_run hm hlen ⟨ho, .inr ⟨ha.std, hd⟩⟩ hl hα hB hA tstart hst (x1 - x2) l hs
  refine ⟨l1, fun k e1 e2 h1 h2 => ?_⟩
  have hk : k < (run c (quiet n) (x1 - x2) l (start c tstart step (x1 - x2))).st.points.length := by
    rw [l3]; exact (List.getElem?_eq_some_iff.1 h1).1
  obtain ⟨a, a', b⟩ := hc k e1 e2 _ h1 h2 (List.getElem?_eq_getElem hk)
  have := hF _ (List.getElem_mem hk)
  have hx : (run c (quiet n) (x1 - x2) l (start c tstart step (x1 - x2))).st.points[k].x = e1.x - e2.x := by
    funext i; rw [b i, Pi.sub_apply]; ring
  rw [hx, a'] at this
  exact ⟨a, this⟩

/-! ### Circuits -/

section circuits
open Verif.Circuit Verif.Mna Verif.Dyn Verif.Rlc Verif.Conserve

theorem passive {nv m : Nat} {circ : List (Elem ℝ)} {s : Mna.Sys ℝ} {D : Mat ℝ} {cmin gmin : ℝ} (hnv : 0 < nv)
    (he : ∀ e ∈ circ, NodesLt nv e) (hp : ∀ e ∈ circ, Converge.Linear e) (hpos : ∀ e ∈ circ, Positive e)
    (h : generate circ nv = .ok s) (hm : s.size = m + 1) (hd : generateD circ nv (m + 1) cmin = .ok D)
    (hc : 0 ≤ cmin) (hg : 0 ≤ gmin) (hsym : ∀ x y, magForm circ nv x y = magForm circ nv y x)
    (hmag : ∀ x, 0 ≤ magForm circ nv x x) (Tt : ℝ → Fin m → ℝ) :
    PassiveNet (signs m nv) (quiet (netT m s D nv gmin Tt)) := by
  have hL := lossy hnv he hp hpos h hm hd hc hg hsym hmag Tt
  refine ⟨rfl, rfl, rfl, fun _ => rfl, hL.form.sym, hL.form.pos, fun v => ?_, ?_, ?_, hg⟩
  · show 0 ≤ v ⬝ᵥ ((signs m nv * reduce m s.M) *ᵥ v)
    rw [static_form' hnv he hp h hm]
    refine sum_nonneg' _ _ fun e hm => ?_
    have := hpos e hm
    cases e <;> simp only [lost, Positive] at this ⊢ <;> try exact le_refl _
    exact div_nonneg (mul_self_nonneg _) this.le
  · show signs m nv * Op.gminMat (nv - 1) 1 = Op.gminMat (nv - 1) 1
    simp only [signs, Op.gminMat, Matrix.diagonal_mul_diagonal]
    congr 1
    funext i
    by_cases hi : i.val < nv - 1
    · rw [if_pos hi, sgn, if_pos (by omega), one_mul]
    · rw [if_neg hi, mul_zero]
  · rw [signs, Matrix.det_diagonal]
    refine Finset.prod_ne_zero_iff.mpr fun i _ => ?_
    unfold sgn
    split <;> simp

/-- C189 for circuits of resistors, capacitors, inductors (coupled or not, with nonnegative energy) and independent sources: two
transient analyses with the same sources and the same steps (implicit Euler or trapezoidal rule) from different starting points end
alike, record the same times, and the energy of the difference of their results never increases. -/
theorem C189_energy_of_the_difference {c : Cfg ℝ} (hme : c.meth = .euler ∨ c.meth = .trap) (hlen : 0 < c.len) (ho : Op.Plain c.o)
    (ha : AllMeth c.o) {nv m : Nat} {circ : List (Elem ℝ)} {s : Mna.Sys ℝ} {D : Mat ℝ} {cmin gmin : ℝ} (hnv : 0 < nv)
    (he : ∀ e ∈ circ, NodesLt nv e) (hp : ∀ e ∈ circ, Converge.Linear e) (hpos : ∀ e ∈ circ, Positive e)
    (h : generate circ nv = .ok s) (hm : s.size = m + 1) (hd : generateD circ nv (m + 1) cmin = .ok D)
    (hc : 0 ≤ cmin) (hg : 0 ≤ gmin) (hsym : ∀ x y, magForm circ nv x y = magForm circ nv y x)
    (hmag : ∀ x, 0 ≤ magForm circ nv x x) (Tt : ℝ → Fin m → ℝ) (tstart : ℝ) {step : ℝ} (hst : 0 < step) (x1 x2 : Fin m → ℝ)
    (l : List (Ctl ℝ)) (hs : ∀ a ∈ l, 0 < a.step) :
    let p1 := (run c (netT m s D nv gmin Tt) x1 l (start c tstart step x1)).st.points
    let p2 := (run c (netT m s D nv gmin Tt) x2 l (start c tstart step x2)).st.points
    p2.length = p1.length ∧ ∀ (k : Nat) (e1 e2 : Entry ℝ m), p1[k]? = some e1 → p2[k]? = some e2 →
      e2.t = e1.t ∧ stored circ nv cmin (e1.x - e2.x) ≤ stored circ nv cmin (x1 - x2) ∧
      ∀ (j : Nat) (f1 f2 : Entry ℝ m), k ≤ j → p1[j]? = some f1 → p2[j]? = some f2 →
        stored circ nv cmin (f1.x - f2.x) ≤ stored circ nv cmin (e1.x - e2.x) := by
  have hz := (generate_row (fun _ => 0) he (linear_static hp).1 h).1
  have hS : ∀ v : Fin m → ℝ, energy (signs m nv) (netT m s D nv gmin Tt) v = stored circ nv cmin v := fun v =>
    dynamic_form' hnv he hp (by omega) hd v v
  simp only [← hS]
  exact C189_net hme hlen ho ha ⟨rfl, rfl⟩ (passive hnv he hp hpos h hm hd hc hg hsym hmag Tt) tstart hst x1 x2 l hs

/-- no inductors -/
def NoCoil : Elem ℝ → Prop
  | .L .. => False
  | _ => True

theorem no_mag {circ : List (Elem ℝ)} (hn : ∀ e ∈ circ, NoCoil e) (nv : Nat) (x y : Vec ℝ) : magForm circ nv x y = 0 := by
  rw [magForm_uncoupled (fun e hm => by have := hn e hm; cases e <;> simp_all [NoCoil, Uncoupled])]
  suffices ∀ (l : List (Elem ℝ)) (k : Nat), (∀ e ∈ l, NoCoil e) → brSum (indForm nv x y) l k = 0 from this circ 0 hn
  intro l
  induction l with
  | nil => intro k _; rfl
  | cons e t ih =>
    intro k hl
    have h1 := hl e (by simp)
    rw [brSum, ih _ fun e' h' => hl e' (by simp [h'])]
    cases e <;> simp_all [NoCoil, indForm]

/-- the sum of the capacitances -/
def capSum (circ : List (Elem ℝ)) : ℝ := (circ.map fun | .C _ _ _ c _ => c | _ => 0).sum

theorem cap_bound {nv : Nat} {x : Vec ℝ} (l : List (Elem ℝ)) (he : ∀ e ∈ l, NodesLt nv e) (hpos : ∀ e ∈ l, Positive e) :
    (l.map (capForm x x)).sum ≤ 2 * capSum l * ∑ r ∈ Finset.range nv, x r * x r := by
  induction l with
  | nil => simp [capSum]
  | cons e t ih =>
    have ih := ih (fun e' h' => he e' (by simp [h'])) (fun e' h' => hpos e' (by simp [h']))
    have h1 := he e (by simp)
    have h2 := hpos e (by simp)
    have hsum : 0 ≤ ∑ r ∈ Finset.range nv, x r * x r := Finset.sum_nonneg fun r _ => mul_self_nonneg _
    simp only [capSum, List.map_cons, List.sum_cons] at ih ⊢
    cases e <;> simp only [capForm, zero_add, NodesLt, Positive] at h1 h2 ⊢ <;> try exact ih
    rename_i n1 n2 cv _
    have : (x n1 - x n2) * (x n1 - x n2) ≤ 2 * ∑ r ∈ Finset.range nv, x r * x r := by
      by_cases hn : n1 = n2
      · subst hn
        rw [sub_self, zero_mul]
        linarith
      · have := Finset.add_le_sum (f := fun r => x r * x r) (fun r _ => mul_self_nonneg (x r)) (Finset.mem_range.2 h1.1)
          (Finset.mem_range.2 h1.2) hn
        nlinarith [mul_self_nonneg (x n1 + x n2)]
    nlinarith [mul_le_mul_of_nonneg_left this h2]

theorem gmin_nodes {nv m : Nat} (hm : nv ≤ m + 1) (v : Fin m → ℝ) :
    v ⬝ᵥ (gminMat (nv - 1) 1 *ᵥ v) = ∑ r ∈ Finset.range nv, Rlc.ext v r * Rlc.ext v r := by
  rw [← nodeW_dot hm (Rlc.ext v) rfl v (Rlc.ext v) (fun i => by simp [Rlc.ext])]
  simp only [gminMat, Matrix.mulVec_diagonal, dotProduct, nodeW]
  refine Finset.sum_congr rfl fun i _ => ?_
  by_cases hi : i.val < nv - 1
  · rw [if_pos hi, if_pos (by omega)]
    simp [Rlc.ext]
  · rw [if_neg hi, if_neg (by omega)]
    simp

/-- C189, without inductors and with `gmin` at the nodes: with implicit Euler the difference fades, however long the steps are. -/
theorem C189_difference_fades {c : Cfg ℝ} (hme : c.meth = .euler) (hlen : 0 < c.len) (ho : Op.Plain c.o)
    (ha : AllMeth c.o) {nv m : Nat} {circ : List (Elem ℝ)} {s : Mna.Sys ℝ} {D : Mat ℝ} {cmin gmin : ℝ} (hnv : 0 < nv)
    (he : ∀ e ∈ circ, NodesLt nv e) (hp : ∀ e ∈ circ, Converge.Linear e) (hpos : ∀ e ∈ circ, Positive e) (hn : ∀ e ∈ circ, NoCoil e)
    (h : generate circ nv = .ok s) (hm : s.size = m + 1) (hd : generateD circ nv (m + 1) cmin = .ok D)
    (hc : 0 < cmin) (hg : 0 ≤ gmin) (Tt : ℝ → Fin m → ℝ)
    (hr : ∀ a : ℝ, 0 < a → (reduce m s.M + a • reduce m D + gminMat (nv - 1) gmin).det ≠ 0)
    (tstart : ℝ) {step : ℝ} (hst : 0 < step) (x1 x2 : Fin m → ℝ)
    (l : List (Ctl ℝ)) (hs : ∀ a ∈ l, 0 < a.step) :
    let p1 := (run c (netT m s D nv gmin Tt) x1 l (start c tstart step x1)).st.points
    let p2 := (run c (netT m s D nv gmin Tt) x2 l (start c tstart step x2)).st.points
    p2.length = p1.length ∧ ∀ (k : Nat) (e1 e2 : Entry ℝ m), p1[k]? = some e1 → p2[k]? = some e2 →
      e2.t = e1.t ∧ √(stored circ nv cmin (e1.x - e2.x)) * (1 + gmin / (cmin + 2 * capSum circ) * (e1.t - tstart)) ≤
        √(stored circ nv cmin (x1 - x2)) := by
  have hz := (generate_row (fun _ => 0) he (linear_static hp).1 h).1
  have hS : ∀ v : Fin m → ℝ, nrm (signs m nv * (netT m s D nv gmin Tt).D) v = √(stored circ nv cmin v) := fun v =>
    congrArg Real.sqrt (dynamic_form' hnv he hp (by omega) hd v v)
  have hL := lossy hnv he hp hpos h hm hd hc.le hg (fun x y => by rw [no_mag hn, no_mag hn]) (fun x => by rw [no_mag hn]) Tt
  have hP := passive hnv he hp hpos h hm hd hc.le hg (fun x y => by rw [no_mag hn, no_mag hn]) (fun x => by rw [no_mag hn]) Tt
  have hcs : 0 ≤ capSum circ := sum_nonneg' _ _ fun e hm => by
    have := hpos e hm
    cases e <;> simp_all [Positive]
  simp only [← hS]
  refine C189_fade hme hlen ho ha ⟨rfl, rfl⟩ hr (by positivity) hL.form (fun v => ?_) tstart hst x1 x2 l hs
  have e1 : v ⬝ᵥ ((signs m nv * (netT m s D nv gmin Tt).D) *ᵥ v) = stored circ nv cmin v :=
    dynamic_form' hnv he hp (by omega) hd v v
  have e2 : stored circ nv cmin v ≤ (cmin + 2 * capSum circ) * ∑ r ∈ Finset.range nv, Rlc.ext v r * Rlc.ext v r := by
    rw [stored, no_mag hn]
    linarith [cap_bound (x := Rlc.ext v) circ he hpos]
  have e3 : gmin * ∑ r ∈ Finset.range nv, Rlc.ext v r * Rlc.ext v r ≤
      v ⬝ᵥ ((signs m nv * (reduce m s.M + gminMat (nv - 1) gmin)) *ᵥ v) := by
    have hS : signs m nv * gminMat (nv - 1) (1 : ℝ) = gminMat (nv - 1) 1 := hP.nodes
    have h0 : 0 ≤ v ⬝ᵥ ((signs m nv * reduce m s.M) *ᵥ v) := hP.static v
    rw [gminMat_smul, mul_add, Matrix.mul_smul, hS, add_mulVec, dotProduct_add, smul_mulVec, dotProduct_smul, smul_eq_mul,
      gmin_nodes (by omega)]
    linarith
  rw [e1]
  refine le_trans ?_ e3
  rw [div_mul_eq_mul_div, div_le_iff₀ (by positivity), mul_assoc]
  refine mul_le_mul_of_nonneg_left ?_ hg
  rw [mul_comm _ (cmin + _)]
  exact e2

end circuits

/-! ### Examples -/

/-- the capacitor of `rc` from two voltages: the difference of the voltages halves within 1 s, however long the steps -/
example {c : Cfg ℝ} (hm : c.meth = .euler) (hlen : 0 < c.len) (ho : Op.Plain c.o) (ha : AllMeth c.o) {step : ℝ} (h0 : 0 < step)
    (a b : ℝ) (l : List (Ctl ℝ)) (hl : ∀ e ∈ l, 0 < e.step) (k : Nat) (e1 e2 : Entry ℝ 1)
    (h1 : (run c Converge.rc ![a] l (start c 0 step ![a])).st.points[k]? = some e1)
    (h2 : (run c Converge.rc ![b] l (start c 0 step ![b])).st.points[k]? = some e2) :
    |e1.x 0 - e2.x 0| * (1 + e1.t) ≤ |a - b| := by
  have := ((C189_fade (n := Converge.rc) (S := 1) (α := 1) hm hlen ho ha ⟨rfl, rfl⟩
    (by
      rcases (rc_direct c.o ho ha.std).2 with h | h
      · have := ha.gmin; rw [h.1] at this; cases this
      · exact h.2) one_pos.le rc_lossy.form (fun v => by
      have : gminMat (m := 1) 1 (0 : ℝ) = 0 := by ext i j; fin_cases i; fin_cases j; simp [gminMat]
      show 1 * (v ⬝ᵥ ((1 * !![1]) *ᵥ v)) ≤ v ⬝ᵥ ((1 * (!![1] + gminMat 1 0)) *ᵥ v)
      rw [this, add_zero, one_mul]) 0 h0 ![a] ![b] l hl).2 k e1 e2 h1 h2).2
  rw [nrm_one, nrm_one] at this
  simpa using this

/-- a resistor, a capacitor and a source meet the hypotheses on circuits -/
example : let f : List (Circuit.Elem ℝ) := [.I "I1" 0 1 { dc := some 1 }, .R "R1" 1 0 1, .C "C1" 1 0 1 none]
    (∀ e ∈ f, Mna.NodesLt 2 e) ∧ (∀ e ∈ f, Converge.Linear e) ∧ (∀ e ∈ f, Rlc.Positive e) ∧ (∀ e ∈ f, NoCoil e) ∧
    ∃ s D, Mna.generate f 2 = .ok s ∧ s.size = 1 + 1 ∧ Dyn.generateD f 2 (1 + 1) 1 = .ok D ∧
      ∀ a : ℝ, 0 < a → (Rlc.reduce 1 s.M + a • Rlc.reduce 1 D + gminMat (2 - 1) 1).det ≠ 0 := by
  refine ⟨?_, ?_, ?_, ?_, _, _, rfl, rfl, rfl, ?_⟩
  · simp [Mna.NodesLt]
  · simp [Converge.Linear]
  · simp [Rlc.Positive]
  · simp [NoCoil]
  · intro a ha
    rw [Matrix.det_fin_one]
    simp [Rlc.reduce, Mna.Mat.add, Mna.Mat.put, gminMat, Circuit.Elem.vde, Dyn.cminMat]
    linarith

end Verif.Settle
