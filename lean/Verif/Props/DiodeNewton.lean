import Verif.Model.DiodeNewton
import Verif.Props.Diode

/-!
Property C181: a diode with series resistance has a current for every voltage, found from every start.
-/

namespace Verif.Diode
open Real Verif.Circuit

/-- no breakdown, no high injection: the parameters by default -/
structure DM.Plain (m : DM) : Prop where
  bv : m.BV = none
  ikf : m.IKF = none
  is : 0 < m.IS
  isr : 0 ≤ m.ISR
  n : 0 < m.N
  nr : 0 < m.NR
  vt : 0 < m.VT
  rs : 0 < m.RS

/-- the exponentials are not cut off -/
def DM.Below (m : DM) (v : ℝ) : Prop := v / (m.N * m.VT) < 70 ∧ v / (m.NR * m.VT) < 70

theorem safeExp_tangent {u w : ℝ} (hu : u < 70) (hw : w < 70) : safeExp u * (w - u) ≤ safeExp w - safeExp u := by
  unfold safeExp
  rw [if_pos hu, if_pos hw]
  have h := Real.add_one_le_exp (w - u)
  have h2 : exp w = exp u * exp (w - u) := by rw [← Real.exp_add]; congr 1; ring
  rw [h2]
  nlinarith [Real.exp_pos u]

variable {m : DM}

/-- the slope of the diode current -/
noncomputable def DM.slope (m : DM) (v : ℝ) : ℝ :=
  m.IS / (m.N * m.VT) * safeExp (v / (m.N * m.VT)) + m.ISR / (m.NR * m.VT) * safeExp (v / (m.NR * m.VT))

theorem slope_pos (h : m.Plain) (v : ℝ) : 0 < m.slope v := by
  have := h.is; have := h.isr; have := h.n; have := h.nr; have := h.vt
  have := safeExp_pos (v / (m.N * m.VT))
  have := safeExp_pos (v / (m.NR * m.VT))
  unfold DM.slope
  positivity

theorem objRsPrime_eq (h : m.Plain) (gmin area vext x : ℝ) :
    m.objRsPrime gmin area vext x = 1 / m.RS + area * m.slope (vext - x) := by
  unfold DM.objRsPrime DM.gm DM.slope
  simp [h.bv, breakdown]

theorem cur_eq (h : m.Plain) (v : ℝ) :
    m.cur v = m.IS * safeExp (v / (m.N * m.VT)) + m.ISR * (safeExp (v / (m.NR * m.VT)) - 1) := by
  unfold DM.cur DM.fwd DM.recomb DM.rev
  simp only [h.ikf, h.bv, kinj, breakdown]
  ring

/-- the current is above its tangents -/
theorem cur_tangent (h : m.Plain) {v w : ℝ} (hv : m.Below v) (hw : m.Below w) : m.slope v * (w - v) ≤ m.cur w - m.cur v := by
  have := h.is; have := h.isr; have := h.n; have := h.nr; have := h.vt
  rw [cur_eq h, cur_eq h]
  unfold DM.slope
  have h1 := mul_le_mul_of_nonneg_left (safeExp_tangent hv.1 hw.1) h.is.le
  have h2 := mul_le_mul_of_nonneg_left (safeExp_tangent hv.2 hw.2) h.isr
  have e1 : m.IS * (safeExp (v / (m.N * m.VT)) * (w / (m.N * m.VT) - v / (m.N * m.VT))) =
      m.IS / (m.N * m.VT) * safeExp (v / (m.N * m.VT)) * (w - v) := by field_simp
  have e2 : m.ISR * (safeExp (v / (m.NR * m.VT)) * (w / (m.NR * m.VT) - v / (m.NR * m.VT))) =
      m.ISR / (m.NR * m.VT) * safeExp (v / (m.NR * m.VT)) * (w - v) := by field_simp
  rw [e1] at h1
  rw [e2] at h2
  linarith

theorem prime_pos (h : m.Plain) {area : ℝ} (ha : 0 < area) (gmin vext x : ℝ) : 0 < m.objRsPrime gmin area vext x := by
  rw [objRsPrime_eq h]
  have := slope_pos h (vext - x)
  have := h.rs
  positivity

/-- the function solved is below its tangents -/
theorem objRs_tangent (h : m.Plain) {area : ℝ} (ha : 0 < area) (gmin : ℝ) {vext x y : ℝ} (hx : m.Below (vext - x))
    (hy : m.Below (vext - y)) :
    m.objRs area vext y - m.objRs area vext x ≤ (y - x) * m.objRsPrime gmin area vext x := by
  rw [objRsPrime_eq h]
  unfold DM.objRs
  have h1 := mul_le_mul_of_nonneg_left (cur_tangent h hx hy) ha.le
  have e : (y - x) * (1 / m.RS + area * m.slope (vext - x)) = y / m.RS - x / m.RS + area * (m.slope (vext - x) * (y - x)) := by ring
  rw [e]
  linarith [show m.slope (vext - x) * (vext - y - (vext - x)) = - (m.slope (vext - x) * (y - x)) by ring,
    show area * (m.slope (vext - x) * (vext - y - (vext - x))) = -(area * (m.slope (vext - x) * (y - x))) by ring]

/-- a Newton step does not pass the solution from the left, and ends on its left from the right -/
theorem step_left (h : m.Plain) {area : ℝ} (ha : 0 < area) (gmin : ℝ) {vext x r : ℝ} (hr : m.IsRoot area vext r)
    (hx : m.Below (vext - x)) (hb : m.Below (vext - r)) :
    x - m.objRs area vext x / m.objRsPrime gmin area vext x ≤ r := by
  have hp := prime_pos h ha gmin vext x
  have h1 := objRs_tangent h ha gmin hx hb
  have hr0 : m.objRs area vext r = 0 := hr
  rw [hr0, zero_sub] at h1
  have : -(m.objRs area vext x / m.objRsPrime gmin area vext x) ≤ r - x := by
    rw [← neg_div, div_le_iff₀ hp]; exact h1
  linarith

theorem cur_strictMono (h : m.Plain) : StrictMono m.cur := by
  intro u v huv
  rw [cur_eq h, cur_eq h]
  have h2 : safeExp (u / (m.N * m.VT)) < safeExp (v / (m.N * m.VT)) :=
    safeExp_strictMono (by have := mul_pos h.n h.vt; gcongr)
  have h3 : safeExp (u / (m.NR * m.VT)) < safeExp (v / (m.NR * m.VT)) :=
    safeExp_strictMono (by have := mul_pos h.nr h.vt; gcongr)
  have := mul_lt_mul_of_pos_left h2 h.is
  have := mul_le_mul_of_nonneg_left h3.le h.isr
  linarith

theorem objRs_mono (h : m.Plain) {area : ℝ} (ha : 0 < area) (vext : ℝ) : StrictMono (m.objRs area vext) := by
  intro x y hxy
  have h1 : m.cur (vext - y) < m.cur (vext - x) := cur_strictMono h (by linarith)
  have h2 : x / m.RS < y / m.RS := by have := h.rs; gcongr
  have h3 := mul_lt_mul_of_pos_right h1 ha
  unfold DM.objRs
  linarith

/-- what is returned comes from a last iterate -/
theorem newton_last (guard : Bool) (gmin area vext tol : ℝ) (n : Nat) (x p : ℝ)
    (hn : m.newton guard gmin area vext tol n x = .ok p) :
    ∃ y, (p = y ∧ m.objRs area vext y = 0) ∨ (p = y - m.objRs area vext y / m.objRsPrime gmin area vext y ∧ |p - y| ≤ tol) := by
  induction n generalizing x with
  | zero => simp [DM.newton] at hn
  | succ n ih =>
    unfold DM.newton at hn
    split at hn
    · rename_i hc
      obtain rfl := Except.ok.inj hn
      exact ⟨x, Or.inl ⟨rfl, hc.2⟩⟩
    · simp only at hn
      split at hn
      · rename_i hc
        obtain rfl := Except.ok.inj hn
        exact ⟨x, Or.inr ⟨rfl, hc.elim le_of_lt fun h => h.2.le⟩⟩
      · exact ih _ hn

/-- C181: what is returned is below the solution by at most the tolerance, times the ratio of the slopes if the last iterate was
below the solution; or the exponentials were cut off at the last iterate. -/
theorem C181_close_partial (h : m.Plain) (guard : Bool) {gmin area vext tol : ℝ} (ht : 0 ≤ tol) (ha : 0 < area) {r : ℝ}
    (hr : m.IsRoot area vext r) (hb : m.Below (vext - r)) {n : Nat} {x p : ℝ}
    (hn : m.newton guard gmin area vext tol n x = .ok p) :
    ∃ y, ¬ m.Below (vext - y) ∨
      (p ≤ r ∧ r - p ≤ tol * max 1 (m.objRsPrime gmin area vext y / m.objRsPrime gmin area vext r)) := by
  obtain ⟨y, hy⟩ := newton_last guard gmin area vext tol n x p hn
  refine ⟨y, or_iff_not_imp_left.2 fun hby => ?_⟩
  rw [not_not] at hby
  have hr0 : m.objRs area vext r = 0 := hr
  have hp := prime_pos h ha gmin vext y
  have hpr := prime_pos h ha gmin vext r
  have hm1 := le_max_left 1 (m.objRsPrime gmin area vext y / m.objRsPrime gmin area vext r)
  have hm2 := le_max_right 1 (m.objRsPrime gmin area vext y / m.objRsPrime gmin area vext r)
  rcases hy with ⟨rfl, h0⟩ | ⟨hpy, hst⟩
  · have : p = r := (objRs_mono h ha vext).injective (h0.trans hr0.symm)
    rw [this]
    exact ⟨le_refl _, by rw [sub_self]; positivity⟩
  · have hle := step_left h ha gmin hr hby hb
    rw [← hpy] at hle
    refine ⟨hle, ?_⟩
    have hab := abs_le.1 hst
    rcases le_total r y with hc | hc
    · nlinarith
    · have h2 := objRs_tangent h ha gmin hb hby
      rw [hr0, sub_zero] at h2
      have h3 : p - y = -(m.objRs area vext y) / m.objRsPrime gmin area vext y := by rw [hpy]; ring
      have h4 : 0 ≤ -(m.objRs area vext y) := by
        have := (objRs_mono h ha vext).monotone hc
        linarith
      have h5 : -(m.objRs area vext y) ≤ tol * m.objRsPrime gmin area vext y := by
        have := hab.2
        rw [h3, div_le_iff₀ hp] at this
        exact this
      have h6 : r - y ≤ tol * (m.objRsPrime gmin area vext y / m.objRsPrime gmin area vext r) := by
        rw [mul_div_assoc', le_div_iff₀ hpr]
        nlinarith
      have h7 : y ≤ p := by
        have : 0 ≤ p - y := by rw [h3]; positivity
        linarith
      nlinarith

/-- C181: the current returned is that of the junction at the voltage left over by the series resistance. It is at least the
current of the solution when the iteration stops below it. -/
theorem C181_current (h : m.Plain) {guard : Bool} {gmin area tol vext : ℝ} {last : Option ℝ} {i vd : ℝ} (ha : 0 < area)
    (hg : m.getIn guard gmin area tol vext last = .ok (i, vd)) :
    m.newton guard gmin area vext tol 500 (last.getD (10 * m.VT)) = .ok vd ∧ i * area = vd / m.RS - m.objRs area vext vd ∧
      ∀ r, m.IsRoot area vext r → vd ≤ r → r / m.RS ≤ i * area ∧ vd / m.RS ≤ i * area := by
  unfold DM.getIn at hg
  cases hn : m.newton guard gmin area vext tol 500 (last.getD (10 * m.VT)) with
  | error e => rw [hn] at hg; simp at hg
  | ok p =>
    rw [hn] at hg
    simp only [Except.ok.injEq, Prod.mk.injEq] at hg
    obtain ⟨rfl, rfl⟩ := hg
    refine ⟨rfl, by unfold DM.objRs; ring, fun r hr hle => ?_⟩
    have hr0 : m.objRs area vext r = 0 := hr
    have h1 : m.objRs area vext p ≤ 0 := by
      have := (objRs_mono h ha vext).monotone hle
      linarith
    have h2 : m.cur (vext - r) ≤ m.cur (vext - p) := (cur_strictMono h).monotone (by linarith)
    unfold DM.objRs at hr0 h1
    have := mul_le_mul_of_nonneg_right h2 ha.le
    constructor <;> linarith

/-- C181: from a start below the solution the iterates rise to it and the loop ends, if enough iterations are allowed. -/
theorem C181_terminates_partial (h : m.Plain) (guard : Bool) {gmin area vext tol : ℝ} (ha : 0 < area) {r : ℝ}
    (hr : m.IsRoot area vext r) (hb : m.Below (vext - r)) (n : Nat) (x : ℝ) (hx : m.Below (vext - x)) (hxr : x ≤ r)
    (hn : r - x < n * tol) : ∃ p, m.newton guard gmin area vext tol n x = .ok p ∧ x ≤ p ∧ p ≤ r := by
  induction n generalizing x with
  | zero =>
    rw [Nat.cast_zero, zero_mul] at hn
    linarith
  | succ n ih =>
    have hr0 : m.objRs area vext r = 0 := hr
    have hle := step_left h ha gmin hr hx hb
    have hp := prime_pos h ha gmin vext x
    have h4 : m.objRs area vext x ≤ 0 := by
      have := (objRs_mono h ha vext).monotone hxr
      linarith
    have hge : x ≤ x - m.objRs area vext x / m.objRsPrime gmin area vext x := by
      have := div_nonpos_of_nonpos_of_nonneg h4 hp.le
      linarith
    unfold DM.newton
    split
    · exact ⟨x, rfl, le_refl _, hxr⟩
    · simp only
      split
      · exact ⟨_, rfl, hge, hle⟩
      · rename_i hc
        rw [not_or] at hc
        set p := x - m.objRs area vext x / m.objRsPrime gmin area vext x
        have hst : tol ≤ p - x := by
          have := not_lt.1 hc.1
          rwa [abs_of_nonneg (by linarith)] at this
        have hbp : m.Below (vext - p) := by
          have a1 := mul_pos h.n h.vt
          have a2 := mul_pos h.nr h.vt
          constructor
          · refine lt_of_le_of_lt ?_ hx.1
            gcongr
          · refine lt_of_le_of_lt ?_ hx.2
            gcongr
        obtain ⟨q, hq, h1, h2⟩ := ih p hbp hle (by push_cast at hn; nlinarith)
        exact ⟨q, hq, hge.trans h1, h2⟩

/-- C181, refuted: for voltages that are 570 emission voltages or more above the start, 500 iterations are not enough: every step is
shorter than one emission voltage. -/
theorem C181_high_voltage_refuted (h : m.Plain) (h0 : m.ISR = 0) (guard : Bool) {gmin area vext tol : ℝ} (ha : 0 < area) {x : ℝ}
    (hx : 0 ≤ x) (hv : x + 570 * (m.N * m.VT) ≤ vext) (ht : 4 * tol < m.N * m.VT)
    (h2 : 2 * (x + 500 * (m.N * m.VT)) ≤ m.RS * (area * m.IS * exp 70)) :
    m.newton guard gmin area vext tol 500 x = .error .exn := by
  have hE := mul_pos h.n h.vt
  set E := m.N * m.VT with hEdef
  suffices H : ∀ (n : Nat) (y : ℝ), n ≤ 500 → 0 ≤ y → y ≤ x + (500 - n) * E → m.newton guard gmin area vext tol n y = .error .exn by
    refine H 500 x le_rfl hx ?_
    push_cast
    linarith
  intro n
  induction n with
  | zero => intro y _ _ _; rfl
  | succ n ih =>
    intro y hn hy hyx
    push_cast at hyx
    have hn0 : (0 : ℝ) ≤ n := Nat.cast_nonneg n
    have hyv : 70 ≤ (vext - y) / E := by
      rw [le_div_iff₀ hE]
      nlinarith
    have hS : exp 70 ≤ safeExp ((vext - y) / E) := by
      unfold safeExp
      rw [if_neg (not_lt.2 hyv)]
      linarith
    set c := area * m.IS * safeExp ((vext - y) / E) with hc
    have hC : area * m.IS * exp 70 ≤ c := mul_le_mul_of_nonneg_left hS (mul_pos ha h.is).le
    have hc0 : 0 < c := mul_pos (mul_pos ha h.is) (safeExp_pos _)
    have hF : m.objRs area vext y = y / m.RS - c := by
      unfold DM.objRs
      rw [cur_eq h, h0, hc]
      ring
    have hG : m.objRsPrime gmin area vext y = 1 / m.RS + c / E := by
      rw [objRsPrime_eq h, DM.slope, h0, hc]
      ring
    have hrs := h.rs
    have hy2 : y / m.RS ≤ c / 2 := by
      rw [div_le_iff₀ hrs]
      nlinarith [mul_le_mul_of_nonneg_left hC hrs.le]
    have hE2 : E / m.RS ≤ c := by
      rw [div_le_iff₀ hrs]
      nlinarith [mul_le_mul_of_nonneg_left hC hrs.le]
    have hGp : 0 < 1 / m.RS + c / E := by positivity
    have hs1 : -(m.objRs area vext y / m.objRsPrime gmin area vext y) ≤ E := by
      rw [hF, hG, ← neg_div, div_le_iff₀ hGp]
      have e1 : E * (1 / m.RS + c / E) = E / m.RS + c := by field_simp
      have : 0 ≤ y / m.RS := by positivity
      have : 0 ≤ E / m.RS := by positivity
      rw [e1]
      linarith
    have hs2 : E / 4 ≤ -(m.objRs area vext y / m.objRsPrime gmin area vext y) := by
      rw [hF, hG, ← neg_div, le_div_iff₀ hGp]
      have e1 : E / 4 * (1 / m.RS + c / E) = E / m.RS / 4 + c / 4 := by field_simp
      rw [e1]
      linarith
    have hne : m.objRs area vext y ≠ 0 := by rw [hF]; intro hz; linarith
    unfold DM.newton
    rw [if_neg (fun hh => hne hh.2)]
    simp only
    have hst : tol < |y - m.objRs area vext y / m.objRsPrime gmin area vext y - y| := by
      rw [show y - m.objRs area vext y / m.objRsPrime gmin area vext y - y = -(m.objRs area vext y / m.objRsPrime gmin area vext y) by ring,
        abs_of_nonneg (by linarith)]
      linarith
    rw [if_neg (by
      rintro (hh | hh)
      · linarith
      · linarith [hh.2])]
    exact ih _ (by omega) (by linarith) (by linarith)

/-- a diode of 1e-14 A with 10 Ohm -/
noncomputable def rsDiode : DM := ⟨1e-14, 1, 1, 0, 2, 10, none, none, 0.025, 300, 3, 0, 0⟩

theorem rsDiode_plain : rsDiode.Plain := by
  refine ⟨rfl, rfl, ?_, ?_, ?_, ?_, ?_, ?_⟩ <;> simp only [rsDiode] <;> norm_num

/-- C181, refuted: no current for all voltages from 15 V on, for a new diode and `options.vea = 1e-6`. -/
theorem C181_example_refuted (guard : Bool) (gmin vext : ℝ) (hv : 15 ≤ vext) :
    rsDiode.getIn guard gmin 1 1e-6 vext none = .error .exn := by
  have he : (2 : ℝ) ^ 70 ≤ exp 70 := by
    have h1 : (2 : ℝ) ≤ exp 1 := by
      have := Real.add_one_le_exp (1 : ℝ)
      linarith
    have h2 : exp 70 = exp 1 ^ 70 := by rw [← Real.exp_nat_mul]; norm_num
    rw [h2]
    gcongr
  have hN : rsDiode.N * rsDiode.VT = 0.025 := by simp only [rsDiode]; norm_num
  have hT : rsDiode.VT = 0.025 := rfl
  have hbig : (1e6 : ℝ) ≤ rsDiode.RS * (1 * rsDiode.IS * exp 70) := by
    have : rsDiode.RS * (1 * rsDiode.IS * exp 70) = 1e-13 * exp 70 := by simp only [rsDiode]; ring
    rw [this]
    refine le_trans ?_ (mul_le_mul_of_nonneg_left he (by norm_num))
    norm_num
  unfold DM.getIn
  have := C181_high_voltage_refuted rsDiode_plain rfl guard (gmin := gmin) (area := 1) (vext := vext) (tol := 1e-6) one_pos
    (x := 10 * rsDiode.VT) (by rw [hT]; norm_num) (by rw [hN, hT]; linarith) (by rw [hN]; norm_num)
    (by rw [hN, hT]; linarith)
  simp only [Option.getD_none, this]

/-- hypotheses of the other theorems: the solution at the voltage `20e-14 + VT·ln 2` -/
example : rsDiode.IsRoot 1 (20 * 1e-14 + 0.025 * log 2) (20 * 1e-14) ∧ rsDiode.Below (20 * 1e-14 + 0.025 * log 2 - 20 * 1e-14) ∧
    rsDiode.Below (20 * 1e-14 + 0.025 * log 2 - 0) ∧ (0 : ℝ) ≤ 20 * 1e-14 := by
  have hl : log 2 ≤ 2 - 1 := Real.log_le_sub_one_of_pos two_pos
  refine ⟨?_, ?_, ?_, by norm_num⟩
  · unfold DM.IsRoot
    rw [cur_eq rsDiode_plain]
    have e1 : (20 * 1e-14 + 0.025 * log 2 - 20 * 1e-14) / (rsDiode.N * rsDiode.VT) = log 2 := by
      simp only [rsDiode]
      ring
    rw [e1]
    unfold safeExp
    rw [if_pos (by linarith), Real.exp_log two_pos]
    simp only [rsDiode]
    norm_num
  · constructor <;> simp only [rsDiode] <;> norm_num <;> linarith
  · constructor <;> simp only [rsDiode] <;> norm_num <;> linarith

end Verif.Diode
