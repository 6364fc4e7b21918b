import Verif.Model.MosCtor
import Verif.Props.Mos
import Verif.Props.Consts

/-!
# C166: parameters of transistors and transistor models

The constructors refuse parameters out of range, with an exception that names the parameter; what they accept is in range.
-/

namespace Verif.MosCtor
open Real

theorem self_ok {k : Kind} {m : Model} (h : selfCheck k m = none) :
    (∀ n ∈ m.NSUB, 0 ≤ n) ∧ (∀ u ∈ m.U0, 0 < u) ∧ 0 < m.GAMMA ∧ 1 / 10 < m.th.PHI ∧
    (k = .mosq → 0 ≤ m.AVT ∧ 0 ≤ m.AKP) := by
  unfold selfCheck at h
  by_cases h1 : ∃ n ∈ m.NSUB, n < 0
  · rw [if_pos h1] at h; cases h
  rw [if_neg h1] at h
  by_cases h2 : ∃ u ∈ m.U0, ¬ 0 < u
  · rw [if_pos h2] at h; cases h
  rw [if_neg h2] at h
  by_cases h3 : 0 < m.GAMMA
  swap
  · rw [if_pos h3] at h; cases h
  rw [if_neg (not_not.2 h3)] at h
  by_cases h4 : 1 / 10 < m.th.PHI
  swap
  · rw [if_pos h4] at h; cases h
  rw [if_neg (not_not.2 h4)] at h
  push Not at h1 h2
  refine ⟨h1, h2, h3, h4, ?_⟩
  rintro rfl
  simp only at h
  by_cases h5 : m.AVT < 0
  · rw [if_pos h5] at h; cases h
  rw [if_neg h5] at h
  by_cases h6 : m.AKP < 0
  · rw [if_pos h6] at h; cases h
  exact ⟨not_lt.1 h5, not_lt.1 h6⟩

theorem self_iff {k : Kind} {m : Model} : selfCheck k m = none ↔
    (∀ n ∈ m.NSUB, 0 ≤ n) ∧ (∀ u ∈ m.U0, 0 < u) ∧ 0 < m.GAMMA ∧ 1 / 10 < m.th.PHI ∧
    (k = .mosq → 0 ≤ m.AVT ∧ 0 ≤ m.AKP) := by
  refine ⟨self_ok, fun ⟨h1, h2, h3, h4, h5⟩ => ?_⟩
  unfold selfCheck
  rw [if_neg (by push Not; exact h1), if_neg (by push Not; exact h2), if_neg (not_not.2 h3), if_neg (not_not.2 h4)]
  cases k with
  | ekv => rfl
  | mosq =>
    obtain ⟨h6, h7⟩ := h5 rfl
    simp only
    rw [if_neg (not_lt.2 h6), if_neg (not_lt.2 h7)]

theorem typeOf_sign {k : Kind} {t : String} {np : ℝ} (h : typeOf k t = .ok np) : np = 1 ∨ np = -1 := by
  unfold typeOf at h
  cases k with
  | mosq =>
    simp only at h
    split_ifs at h with h1 h2
    · exact .inl (Except.ok.inj h).symm
    · exact .inr (Except.ok.inj h).symm
  | ekv =>
    simp only [Except.ok.injEq] at h
    split_ifs at h
    · exact .inl h.symm
    · exact .inr h.symm

/-- the constructor, step by step -/
theorem ctor_ok {k : Kind} {p : Phys} {a : Args} {m : Model} : modelCtor k p a = .ok m ↔
    ∃ np cox gamma phi vto, typeOf k a.TYPE = .ok np ∧ 0 < a.TNOM.getD Consts.Tref ∧ coxOf p a = .ok cox ∧
      gammaOf p a cox = .ok gamma ∧ phiOf p a (a.TNOM.getD Consts.Tref) = .ok phi ∧ vtoOf k a np = .ok vto ∧
      m = { NPMOS := np, COX := cox, GAMMA := gamma, NSUB := a.NSUB, U0 := a.U0, LAMBDA := a.LAMBDA.getD (1 / 2),
            AVT := a.AVT.getD (71 / 10 ^ 10), AKP := a.AKP.getD (18 / 10 ^ 9),
            th := Mosq.MT.setT (p.vth (a.TNOM.getD Consts.Tref)) p.eg
              { TNOM := a.TNOM.getD Consts.Tref, TEMP := a.TNOM.getD Consts.Tref, VTO := vto, KP := kpOf a cox, PHI := phi,
                TCV := np * a.TCV.getD (1 / 1000), BEX := a.BEX.getD (-3 / 2) } p.T } ∧
      selfCheck k m = none := by
  unfold modelCtor
  generalize a.TNOM.getD Consts.Tref = tnom
  constructor
  · intro h
    cases h1 : typeOf k a.TYPE with
    | error x => simp [h1, bind, Except.bind] at h
    | ok np =>
    by_cases h2 : tnom ≤ 0
    · simp [h1, h2, bind, Except.bind] at h
    cases h3 : coxOf p a with
    | error x => simp [h1, h2, h3, bind, Except.bind, pure, Except.pure] at h
    | ok cox =>
    cases h4 : gammaOf p a cox with
    | error x => simp [h1, h2, h3, h4, bind, Except.bind, pure, Except.pure] at h
    | ok gamma =>
    cases h5 : phiOf p a tnom with
    | error x => simp [h1, h2, h3, h4, h5, bind, Except.bind, pure, Except.pure] at h
    | ok phi =>
    cases h6 : vtoOf k a np with
    | error x => simp [h1, h2, h3, h4, h5, h6, bind, Except.bind, pure, Except.pure] at h
    | ok vto =>
    simp only [h1, h2, h3, h4, h5, h6, bind, Except.bind, pure, Except.pure, if_false, checked] at h
    split at h
    · exact absurd h (by simp)
    · next hc =>
      have hm := Except.ok.inj h
      refine ⟨np, cox, gamma, phi, vto, rfl, not_le.1 h2, rfl, h4, rfl, h6, hm.symm, ?_⟩
      rw [← hm]; exact hc
  · rintro ⟨np, cox, gamma, phi, vto, h1, h2, h3, h4, h5, h6, rfl, h7⟩
    simp only [h1, not_le.2 h2, h3, h4, h5, h6, bind, Except.bind, pure, Except.pure, if_false, checked]
    rw [h7]

/-- C166: a model that is accepted has a type, a positive reference temperature, a positive body factor, a surface potential above 0.1 V,
and no negative doping or mobility; the surface potential is the one at the temperature of the program. -/
theorem C166_model {k : Kind} {p : Phys} {a : Args} {m : Model} (h : modelCtor k p a = .ok m) :
    (m.NPMOS = 1 ∨ m.NPMOS = -1) ∧ 0 < m.th.TNOM ∧ m.th.TEMP = p.T ∧ 0 < m.GAMMA ∧ 1 / 10 < m.th.PHI ∧
    (∀ n ∈ m.NSUB, 0 ≤ n) ∧ (∀ u ∈ m.U0, 0 < u) ∧ (k = .mosq → 0 ≤ m.AVT ∧ 0 ≤ m.AKP) := by
  obtain ⟨np, cox, gamma, phi, vto, h1, h2, h3, h4, h5, h6, h7, h8⟩ := ctor_ok.1 h
  obtain ⟨s1, s2, s3, s4, s5⟩ := self_ok h8
  subst h7
  exact ⟨typeOf_sign h1, h2, rfl, s3, s4, s1, s2, s5⟩

/-- C166: with body factor, surface potential and threshold given, at the reference temperature, exactly the models with a known
type and parameters in range are accepted, and they have the parameters given. -/
theorem C166_explicit (k : Kind) (p : Phys) (a : Args) {g f v c : ℝ} (hg : a.GAMMA = some g) (hf : a.PHI = some f)
    (hv : a.VTO = some v) (hc : a.COX = some c) (hn : a.TNOM = some p.T) :
    ((∃ m, modelCtor k p a = .ok m) ↔ (∃ np, typeOf k a.TYPE = .ok np) ∧ 0 < p.T ∧ 0 < g ∧ 1 / 10 < f ∧
      (∀ n ∈ a.NSUB, 0 ≤ n) ∧ (∀ u ∈ a.U0, 0 < u) ∧ (k = .mosq → (∀ x ∈ a.AVT, 0 ≤ x) ∧ ∀ x ∈ a.AKP, 0 ≤ x)) ∧
    ∀ m, modelCtor k p a = .ok m → m.GAMMA = g ∧ m.th.PHI = f ∧ m.th.VTO = m.NPMOS * v ∧ m.COX = c ∧
      ∀ kp, a.KP = some kp → m.th.KP = kp := by
  have e1 : coxOf p a = .ok c := by simp [coxOf, hc]
  have e2 : gammaOf p a c = .ok g := by simp [gammaOf, hg]
  have e3 : phiOf p a p.T = .ok f := by simp [phiOf, hf]
  have e4 : ∀ np, vtoOf k a np = .ok (np * v) := by intro np; simp [vtoOf, hv]
  have hset : ∀ t : Mosq.MT, t.TNOM = p.T → 0 < p.T →
      t.setT (p.vth p.T) p.eg p.T = { t with TEMP := p.T } := by
    intro t ht h0
    obtain ⟨tn, te, vt, kp, ph, tc, be⟩ := t
    simp only at ht
    subst ht
    exact (Mosq.C47_nominal_partial (p.vth p.T) p.eg _ (show 0 < p.T from h0) 0).1
  have hd : ∀ (o : Option ℝ) (d : ℝ), 0 ≤ d → (0 ≤ o.getD d ↔ ∀ x ∈ o, 0 ≤ x) := by
    intro o d h0
    cases o <;> simp [h0]
  constructor
  · constructor
    · rintro ⟨m, hm⟩
      obtain ⟨np, cox, gamma, phi, vto, h1, h2, h3, h4, h5, h6, h7, h8⟩ := ctor_ok.1 hm
      simp only [hn, Option.getD_some] at h2 h5 h7
      rw [e1] at h3
      obtain rfl := Except.ok.inj h3
      rw [e2] at h4
      rw [e3] at h5
      obtain rfl := Except.ok.inj h4
      obtain rfl := Except.ok.inj h5
      rw [hset _ rfl h2] at h7
      obtain ⟨s1, s2, s3, s4, s5⟩ := self_ok h8
      subst h7
      refine ⟨⟨np, h1⟩, h2, s3, s4, s1, s2, fun hk => ?_⟩
      obtain ⟨s6, s7⟩ := s5 hk
      exact ⟨(hd _ _ (by norm_num)).1 s6, (hd _ _ (by norm_num)).1 s7⟩
    · rintro ⟨⟨np, h1⟩, h2, h3, h4, h5, h6, h7⟩
      refine ⟨_, ctor_ok.2 ⟨np, c, g, f, np * v, h1, by simp [hn, h2], e1, e2, by simp [hn, e3], e4 np, rfl, ?_⟩⟩
      simp only [hn, Option.getD_some]
      rw [hset _ rfl h2, self_iff]
      exact ⟨h5, h6, h3, h4, fun hk => ⟨(hd _ _ (by norm_num)).2 (h7 hk).1, (hd _ _ (by norm_num)).2 (h7 hk).2⟩⟩
  · intro m hm
    obtain ⟨np, cox, gamma, phi, vto, h1, h2, h3, h4, h5, h6, h7, h8⟩ := ctor_ok.1 hm
    simp only [hn, Option.getD_some] at h2 h5 h7
    rw [e1] at h3
    obtain rfl := Except.ok.inj h3
    rw [e2] at h4
    rw [e3] at h5
    rw [e4] at h6
    obtain rfl := Except.ok.inj h4
    obtain rfl := Except.ok.inj h5
    obtain rfl := Except.ok.inj h6
    rw [hset _ rfl h2] at h7
    subst h7
    refine ⟨rfl, rfl, rfl, rfl, fun kp hk => ?_⟩
    simp [kpOf, hk]

/-- C166 refuted: the conductance factor `KP` is not checked: every number is accepted. -/
theorem C166_conductance_refuted (k : Kind) (p : Phys) (hp : p.T = Consts.Tref) (kp : ℝ) :
    ∃ m, modelCtor k p { TYPE := "n", KP := some kp } = .ok m ∧ m.th.KP = kp := by
  have h0 : 0 < Consts.Tref := by norm_num [Consts.Tref]
  have ht : typeOf k "n" = .ok 1 := by
    cases k with
    | ekv => simp [typeOf]
    | mosq =>
      simp [typeOf]
  have hv : ∃ v, vtoOf k { TYPE := "n", KP := some kp } 1 = .ok v := by
    cases k <;> exact ⟨_, rfl⟩
  obtain ⟨v, hv⟩ := hv
  refine ⟨_, ctor_ok.2 ⟨1, 7 / 10000, 1, 7 / 10, v, ht, h0, rfl, rfl, rfl, hv, rfl, ?_⟩, ?_⟩
  · simp only [Option.getD_none, hp]
    rw [(Mosq.C47_nominal_partial (p.vth Consts.Tref) p.eg _ (show 0 < Consts.Tref from h0) 0).1, self_iff]
    refine ⟨by simp, by simp, by norm_num, by norm_num, fun _ => ⟨by norm_num, by norm_num⟩⟩
  · simp only [Option.getD_none, hp]
    rw [(Mosq.C47_nominal_partial (p.vth Consts.Tref) p.eg _ (show 0 < Consts.Tref from h0) 0).1]
    rfl

/-- C166: a conducting transistor with a negative `KP` delivers power. -/
theorem C166_power_refuted (kp : ℝ) (hk : kp < 0) : ∃ m : Mosq.MQ, m.KP = kp ∧ m.vt 0 ≤ 2 ∧ 1 * m.drain 1 2 0 < 0 := by
  refine ⟨⟨1, 1, kp, 0, 0, 1, 0, 0, 1, 1, 1, 1, 0⟩, rfl, ?_, ?_⟩
  · simp [Mosq.MQ.vt]
  · simp only [Mosq.MQ.drain, Mosq.MQ.voltages, Mosq.MQ.ids, Mosq.MQ.ids0, Mosq.MQ.vt]
    norm_num
    linarith

/-- C166 refuted: the range of the surface potential is checked at the temperature of the program only. For every accepted model there is
a temperature at which `set_device_temperature` leaves a negative surface potential, without any check. (`B` is a bound of the
energy gap, 1.16 V for silicon.) -/
theorem C166_temperature_refuted {k : Kind} {p : Phys} {a : Args} {m : Model} (h : modelCtor k p a = .ok m) {B : ℝ}
    (hv : 0 < p.vth m.th.TNOM) (h0 : 0 ≤ p.eg m.th.TNOM) (hB : ∀ t > 0, p.eg t ≤ B) :
    ∃ t > 0, (m.setT p t).th.PHI < 0 ∧ selfCheck k (m.setT p t) ≠ none := by
  obtain ⟨-, hn, -, -, hphi, -⟩ := C166_model h
  set x := exp (-(m.th.PHI + |B| + 1) / (3 * p.vth m.th.TNOM)) with hx
  have hx0 : 0 < x := exp_pos _
  have hx1 : x ≤ 1 := by
    rw [hx, exp_le_one_iff]
    refine div_nonpos_of_nonpos_of_nonneg ?_ (by positivity)
    have := abs_nonneg B
    linarith
  have ht : 0 < m.th.TNOM * x := mul_pos hn hx0
  have key : (m.setT p (m.th.TNOM * x)).th.PHI < 0 := by
    simp only [Model.setT, Mosq.MT.setT]
    have e1 : m.th.TNOM * x / m.th.TNOM = x := by field_simp
    have e2 : m.th.PHI * (m.th.TNOM * x) / m.th.TNOM = m.th.PHI * x := by field_simp
    have e3 : p.eg m.th.TNOM * (m.th.TNOM * x) / m.th.TNOM = p.eg m.th.TNOM * x := by field_simp
    rw [e1, e2, e3, hx, log_exp, ← hx]
    have e4 : 3 * p.vth m.th.TNOM * (-(m.th.PHI + |B| + 1) / (3 * p.vth m.th.TNOM)) = -(m.th.PHI + |B| + 1) := by
      field_simp
    rw [e4]
    have h1 := hB _ ht
    have h2 := mul_nonneg h0 hx0.le
    have h3 := le_abs_self B
    have h4 : m.th.PHI * x ≤ m.th.PHI * 1 := mul_le_mul_of_nonneg_left hx1 (by linarith)
    linarith
  refine ⟨_, ht, key, fun hc => ?_⟩
  have := (self_ok hc).2.2.2.1
  linarith

/-! ### Devices -/

theorem pyInt_pos (x : ℝ) : 0 < pyInt x ↔ 1 ≤ x := by
  unfold pyInt
  split_ifs with h
  · rw [Int.floor_pos]
  · constructor
    · intro hc
      have := Int.ceil_pos.1 hc
      linarith
    · intro hc; linarith

theorem devChecked_ok {d d' : Dev} : devChecked d = .ok d' ↔ d' = d ∧ 0 < d.L ∧ 0 < d.W ∧ 0 < d.N ∧ 0 < d.M := by
  unfold devChecked deviceCheck
  by_cases h1 : 0 < d.L <;> by_cases h2 : 0 < d.W <;> by_cases h3 : 0 < d.N <;> by_cases h4 : 0 < d.M <;>
    simp [h1, h2, h3, h4, eq_comm]

/-- C166: a transistor is accepted iff width and length are positive and the numbers of devices are at least 1; its numbers of devices are then
the integer parts. For the EKV transistor with a model whose `KP` is not zero. -/
theorem C166_device (k : Kind) (p : Phys) (iea : ℝ) (m : Model) (w l mult n : ℝ) (d : Dev)
    (hv : p.vth m.th.TEMP ≠ 0) (hk : k = .ekv → m.th.KP ≠ 0) :
    deviceCtor k p iea m w l mult n = .ok d ↔
      0 < l ∧ 0 < w ∧ 1 ≤ n ∧ 1 ≤ mult ∧ d = { L := l, W := w, M := ⌊mult⌋, N := ⌊n⌋ } := by
  have hint : ∀ x : ℝ, 1 ≤ x → pyInt x = ⌊x⌋ := fun x hx => by unfold pyInt; rw [if_pos (by linarith)]
  have main : devChecked { L := l, W := w, M := pyInt mult, N := pyInt n } = .ok d ↔
      0 < l ∧ 0 < w ∧ 1 ≤ n ∧ 1 ≤ mult ∧ d = { L := l, W := w, M := ⌊mult⌋, N := ⌊n⌋ } := by
    rw [devChecked_ok]
    simp only [pyInt_pos]
    constructor
    · rintro ⟨rfl, h1, h2, h3, h4⟩
      exact ⟨h1, h2, h3, h4, by rw [hint _ h3, hint _ h4]⟩
    · rintro ⟨h1, h2, h3, h4, rfl⟩
      exact ⟨by rw [hint _ h3, hint _ h4], h1, h2, h3, h4⟩
  cases k with
  | mosq => exact main
  | ekv =>
    have hk := hk rfl
    rw [← main]
    simp only [deviceCtor, ipAbsErr]
    by_cases h1 : l = 0
    · simp only [h1, if_true]
      simp only [reduceCtorEq, false_iff]
      rw [devChecked_ok]
      rintro ⟨-, h, -⟩
      exact lt_irrefl _ h
    · simp only [h1, if_false]
      by_cases h2 : 2 * p.vth m.th.TEMP ^ 2 * m.th.KP * (pyInt mult : ℝ) * w / l = 0
      · simp only [h2, if_true, reduceCtorEq, false_iff]
        rw [devChecked_ok]
        rintro ⟨-, -, h3, -, h4⟩
        have h5 : ((pyInt mult : ℤ) : ℝ) ≠ 0 := by exact_mod_cast h4.ne'
        have h6 : w ≠ 0 := h3.ne'
        have : 2 * p.vth m.th.TEMP ^ 2 * m.th.KP * (pyInt mult : ℝ) * w / l ≠ 0 := by positivity
        exact this h2
      · simp only [h2, if_false]

/-- C166: the error allowed in normalized currents stands for the tolerance `iea` of the current itself. -/
theorem C166_tolerance (p : Phys) (iea : ℝ) (m : Model) (d : Dev) (x : ℝ) (h : ipAbsErr p iea m d = .ok x) :
    x * (2 * m.th.KP * p.vth m.th.TEMP ^ 2 * (d.W / d.L) * d.M) = iea := by
  unfold ipAbsErr at h
  split_ifs at h with h1 h2
  injection h with h
  rw [← h, show 2 * m.th.KP * p.vth m.th.TEMP ^ 2 * (d.W / d.L) * d.M = 2 * p.vth m.th.TEMP ^ 2 * m.th.KP * d.M * d.W / d.L by ring]
  exact div_mul_cancel₀ _ h2

/-- C166 refuted: an EKV transistor of length 0, of width 0 or with no device in parallel is refused with a ZeroDivisionError, not with the exception that names the parameter. -/
theorem C166_message_refuted (p : Phys) (iea : ℝ) (m : Model) (n : ℝ) :
    deviceCtor .ekv p iea m 1 0 1 n = .error .zeroDiv ∧ deviceCtor .ekv p iea m 0 1 1 n = .error .zeroDiv ∧
    deviceCtor .ekv p iea m 1 1 0 n = .error .zeroDiv ∧
    deviceCtor .mosq p iea m 1 0 1 n = .error (.range "L") ∧ deviceCtor .mosq p iea m 0 1 1 n = .error (.range "W") ∧
    deviceCtor .mosq p iea m 1 1 0 1 = .error (.range "M") := by
  have h1 : pyInt 1 = 1 := by unfold pyInt; simp
  have h0 : pyInt 0 = 0 := by unfold pyInt; simp
  refine ⟨?_, ?_, ?_, ?_, ?_, ?_⟩ <;> simp [deviceCtor, ipAbsErr, devChecked, deviceCheck, h0, h1]

/-- C166 refuted: a number of devices that is not an integer is accepted and changed. -/
theorem C166_fraction_refuted (p : Phys) (iea : ℝ) (m : Model) :
    ∃ d, deviceCtor .mosq p iea m 1 1 (3 / 2) 1 = .ok d ∧ (d.M : ℝ) ≠ 3 / 2 := by
  have h : pyInt (3 / 2) = 1 := by
    unfold pyInt; rw [if_pos (by norm_num)]; norm_num
  have h1 : pyInt 1 = 1 := by unfold pyInt; simp
  refine ⟨{ L := 1, W := 1, M := 1, N := 1 }, ?_, by norm_num⟩
  simp [deviceCtor, devChecked, deviceCheck, h, h1]

/-! ### Examples -/

/-- the constants of `constants.py`, at 300 K -/
noncomputable def phys : Phys :=
  { T := Consts.Tref, eox := 345 / 10 ^ 13, esi := 1045 / 10 ^ 13, q := Consts.e, vth := Consts.Vth, ni := Consts.si.ni, eg := Consts.si.Eg }

/-- a model with the defaults and `KP = 1`, and a temperature that makes its surface potential negative -/
example : ∃ m, modelCtor .ekv phys { TYPE := "n", KP := some 1 } = .ok m ∧ 1 / 10 < m.th.PHI ∧
    (∃ t > 0, (m.setT phys t).th.PHI < 0) ∧
    ∀ d, deviceCtor .ekv phys 1 m 2 1 (5 / 2) 1 = .ok d ↔ d = { L := 1, W := 2, M := 2, N := 1 } := by
  obtain ⟨m, hm, hk⟩ := C166_conductance_refuted .ekv phys rfl 1
  obtain ⟨-, h1, h2, -, h3, -⟩ := C166_model hm
  have hpos : ∀ t : ℝ, 0 < t → 0 < phys.vth t := fun t ht => by
    show 0 < Consts.k * t / Consts.e
    have : 0 < Consts.k := by norm_num [Consts.k]
    have : 0 < Consts.e := by norm_num [Consts.e]
    positivity
  have hT : m.th.TNOM = 300 := by
    obtain ⟨np, cox, gamma, phi, vto, -, -, -, -, -, -, h7, -⟩ := ctor_ok.1 hm
    rw [h7]
    rfl
  have heg : 0 ≤ phys.eg m.th.TNOM := by
    rw [hT]
    norm_num [phys, Consts.Material.Eg, Consts.si]
  have hB : ∀ t > 0, phys.eg t ≤ 116 / 100 := fun t ht => by
    show Consts.si.Eg0 - Consts.si.alpha * t ^ 2 / (Consts.si.beta + t) ≤ 116 / 100
    have : 0 ≤ (702 / 1000000 : ℝ) * t ^ 2 / (1108 + t) := by positivity
    simp only [Consts.si]
    linarith
  obtain ⟨t, ht, hneg, -⟩ := C166_temperature_refuted hm (hpos _ h1) heg hB
  refine ⟨m, hm, h3, ⟨t, ht, hneg⟩, fun d => ?_⟩
  rw [C166_device .ekv phys 1 m 2 1 (5 / 2) 1 d (hpos _ (by rw [h2]; norm_num [phys, Consts.Tref])).ne' (fun _ => by rw [hk]; norm_num)]
  have e1 : ⌊(5 / 2 : ℝ)⌋ = 2 := by norm_num
  have e2 : ⌊(1 : ℝ)⌋ = 1 := by norm_num
  rw [e1, e2]
  norm_num

/-- a transistor of twice the width for which the error of the currents can be computed -/
example : ∃ m, modelCtor .ekv phys { TYPE := "n", KP := some 1 } = .ok m ∧
    ∃ x, ipAbsErr phys 1 m { L := 1, W := 2, M := 1, N := 1 } = .ok x := by
  obtain ⟨m, hm, hk⟩ := C166_conductance_refuted .ekv phys rfl 1
  obtain ⟨-, h1, h2, -⟩ := C166_model hm
  have hv : phys.vth m.th.TEMP ≠ 0 := by
    rw [h2]
    show Consts.k * Consts.Tref / Consts.e ≠ 0
    norm_num [Consts.k, Consts.Tref, Consts.e]
  refine ⟨m, hm, ?_⟩
  unfold ipAbsErr
  rw [if_neg (by norm_num), if_neg (by rw [hk]; simp [hv])]
  exact ⟨_, rfl⟩

end Verif.MosCtor
