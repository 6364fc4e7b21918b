import Verif.Props.Stable

/-!
# C205: impedances and admittances of passive circuits
-/

namespace Verif.Immittance
open Verif.Circuit Verif.Mna Verif.Dyn Verif.Rlc Verif.Recip Verif.Stable Complex

/-- the points of an AC sweep of a circuit of resistors, capacitors, inductors, couplings and sources, over positive frequencies -/
structure Sweep (sqrt : ℝ → Option ℝ) (circ : List (Elem ℝ)) (nv : Nat) (cmin gmin : ℝ) (ph : String → Option ℂ) {m : Nat}
    (pts : List (ℝ × (Fin m → ℂ))) : Prop where
  nv_pos : 0 < nv
  built : Built sqrt circ
  nodes : ∀ e ∈ circ, NodesLt nv e
  passive : ∀ e ∈ circ, TwoPole e
  positive : ∀ e ∈ circ, Positive e
  cmin_nonneg : 0 ≤ cmin
  gmin_nonneg : 0 ≤ gmin
  result : ∃ s D, generate circ nv = .ok s ∧ s.size = m + 1 ∧ generateAC circ nv s.size cmin = .ok D ∧
    ∃ (o : Ac.AOpts) (start stop : ℝ) (N : Nat) (x0 : Fin m → ℂ), Ac.Default o ∧ 0 < start ∧ start ≤ stop ∧ 2 ≤ N ∧
      Ac.acAnalysis o ⟨reduce m s.M, reduce m D, 0, reduceV m (genNac (circ.map (lift ph)) nv).2, nv - 1, gmin⟩
        .lin start stop N x0 = .ok (some pts)

/-- the power given to the circuit by the sources -/
noncomputable def given (circ : List (Elem ℝ)) (nv : Nat) (ph : String → Option ℂ) (z : Vec ℂ) : ℂ :=
  -(((circ.map (lift ph)).map (takenI z)).sum + brSum (takenV nv z) (circ.map (lift ph)) 0)

theorem Sweep.power {sqrt : ℝ → Option ℝ} {circ : List (Elem ℝ)} {nv m : Nat} {cmin gmin : ℝ} {ph : String → Option ℂ}
    {pts : List (ℝ × (Fin m → ℂ))} (h : Sweep sqrt circ nv cmin gmin ph pts) {p : ℝ × (Fin m → ℂ)} (hp : p ∈ pts) :
    0 < p.1 ∧ ∃ g, 0 ≤ g ∧ (gmin = 0 → g = 0) ∧
      (given circ nv ph (Rlc.ext p.2)).re = (circ.map (heat (Rlc.ext p.2))).sum + g * ∑ r ∈ Finset.range nv, normSq (Rlc.ext p.2 r) ∧
      (given circ nv ph (Rlc.ext p.2)).im = 2 * Real.pi * p.1 *
        ((circ.map (elec (Rlc.ext p.2))).sum + cmin * ∑ r ∈ Finset.range nv, normSq (Rlc.ext p.2 r) - magn circ nv (Rlc.ext p.2)) := by
  obtain ⟨s, D, h1, h2, h3, o, start, stop, N, x0, ho, h4, h5, h6, h7⟩ := h.result
  constructor
  · rcases Ac.C120_linear ho _ start stop h4.ne' h5 N h6 x0 with ⟨e, -⟩ | ⟨q, e, -, f, -⟩
    · rw [h7] at e; cases e
    rw [h7] at e
    cases e
    have : p.1 ∈ pts.map Prod.fst := List.mem_map_of_mem hp
    rw [f] at this
    obtain ⟨i, -, hi⟩ := List.mem_map.1 this
    rw [← hi]
    have hN : (0 : ℝ) < N - 1 := by
      have : (2 : ℝ) ≤ N := by exact_mod_cast h6
      linarith
    have : 0 ≤ (i : ℝ) * ((stop - start) / (N - 1)) := by
      have := sub_nonneg.2 h5
      positivity
    linarith
  · obtain ⟨g, hg, h8, h9⟩ := C140_ac_results h.nv_pos h.built h.nodes h.passive h1 h2 h3 ph gmin ho start stop h4.ne' h5 N h6 x0 h7 p hp
    refine ⟨g, ?_, ?_, h8, h9⟩
    · rcases hg with rfl | rfl
      · exact h.gmin_nonneg
      · exact le_rfl
    · intro h0
      rcases hg with rfl | rfl
      · exact h0
      · rfl

/-- no phasor is given for the source -/
def Silent (ph : String → Option ℂ) : Elem ℝ → Prop
  | .V id .. | .I id .. => ph id = none
  | _ => True

theorem silent_I {ph : String → Option ℂ} {e : Elem ℝ} (h : Silent ph e) (z : Vec ℂ) : takenI z (lift ph e) = 0 := by
  cases e <;> simp_all [Silent, Stable.lift, takenI, acVal]

theorem silent_V {ph : String → Option ℂ} {e : Elem ℝ} (h : Silent ph e) (nv : Nat) (z : Vec ℂ) (k : Nat) :
    takenV nv z k (lift ph e) = 0 := by
  cases e <;> simp_all [Silent, Stable.lift, takenV, acVal]

theorem brSum_last {f : Nat → Elem ℂ → ℂ} {l : List (Elem ℂ)} (h : ∀ e ∈ l, ∀ k, f k e = 0) (e : Elem ℂ) (k : Nat) :
    brSum f (l ++ [e]) k = if e.vde then f (k + (vdes l).length) e else 0 := by
  induction l generalizing k with
  | nil => simp [brSum, vdes_nil]
  | cons a t ih =>
    rw [List.cons_append, brSum, ih (fun e he => h e (by simp [he])), h a (by simp), vdes_cons]
    split_ifs <;> simp [Nat.add_comm, Nat.add_assoc]

theorem sum_silent {ph : String → Option ℂ} {C : List (Elem ℝ)} (hs : ∀ e ∈ C, Silent ph e) (z : Vec ℂ) (e : Elem ℝ) :
    (((C ++ [e]).map (lift ph)).map (takenI z)).sum = takenI z (lift ph e) := by
  rw [List.map_append, List.map_append, List.sum_append]
  have : ((C.map (lift ph)).map (takenI z)).sum = 0 := by
    refine List.sum_eq_zero fun v hv => ?_
    rw [List.map_map] at hv
    obtain ⟨e, he, rfl⟩ := List.mem_map.1 hv
    exact silent_I (hs e he) z
  rw [this]
  simp

/-- the impedance seen by a current source that drives the current `j` from `a` to `b` -/
noncomputable def impedance (z : Vec ℂ) (a b : Nat) (j : ℂ) : ℂ := (z b - z a) / j

/-- the admittance seen by a voltage source of the phasor `u`, whose current is the unknown `k` -/
noncomputable def admittance (z : Vec ℂ) (k : Nat) (u : ℂ) : ℂ := - z k / u

section Current
variable {sqrt : ℝ → Option ℝ} {C : List (Elem ℝ)} {nv m : Nat} {cmin gmin : ℝ} {ph : String → Option ℂ}
  {pts : List (ℝ × (Fin m → ℂ))} {id : String} {a b : Nat} {src : Src ℝ} {j : ℂ}

theorem given_I (hs : ∀ e ∈ C, Silent ph e) (hj : ph id = some j) (z : Vec ℂ) (h0 : j ≠ 0) :
    given (C ++ [.I id a b src]) nv ph z = (normSq j : ℂ) * (starRingEnd ℂ) (impedance z a b j) := by
  rw [given, sum_silent hs, List.map_append, List.map_singleton, brSum_last]
  · have : ((normSq j : ℝ) : ℂ) = (starRingEnd ℂ) j * j := by rw [mul_comm, Complex.mul_conj]
    rw [this, impedance, map_div₀]
    have hc : (starRingEnd ℂ) j ≠ 0 := (map_ne_zero _).2 h0
    simp only [Stable.lift, takenI, acVal, hj, Option.getD_some, takenV, Elem.vde]
    field_simp
    simp
    ring
  · intro e he k
    obtain ⟨e', he', rfl⟩ := List.mem_map.1 he
    exact silent_V (hs e' he') nv z k

/-- C205: the resistance (real part of the impedance) is the heat and the reactance (imaginary part) the difference of the energies
stored in inductors and capacitors, for a current of one ampere. -/
theorem C205_energy (h : Sweep sqrt (C ++ [.I id a b src]) nv cmin gmin ph pts) (hs : ∀ e ∈ C, Silent ph e) (hj : ph id = some j)
    (h0 : j ≠ 0) {p : ℝ × (Fin m → ℂ)} (hp : p ∈ pts) : 0 < p.1 ∧ ∃ g, 0 ≤ g ∧ (gmin = 0 → g = 0) ∧
    normSq j * (impedance (Rlc.ext p.2) a b j).re =
      (C.map (heat (Rlc.ext p.2))).sum + g * ∑ r ∈ Finset.range nv, normSq (Rlc.ext p.2 r) ∧
    normSq j * (impedance (Rlc.ext p.2) a b j).im = 2 * Real.pi * p.1 * (magn (C ++ [.I id a b src]) nv (Rlc.ext p.2) -
      (C.map (elec (Rlc.ext p.2))).sum - cmin * ∑ r ∈ Finset.range nv, normSq (Rlc.ext p.2 r)) := by
  obtain ⟨h1, g, h2, h3, h4, h5⟩ := h.power hp
  refine ⟨h1, g, h2, h3, ?_, ?_⟩
  · rw [given_I hs hj _ h0, Complex.re_ofReal_mul, Complex.conj_re] at h4
    rw [h4]
    simp [heat]
  · rw [given_I hs hj _ h0, Complex.im_ofReal_mul, Complex.conj_im] at h5
    simp only [List.map_append, List.map_singleton, List.sum_append, List.sum_singleton, elec, add_zero] at h5
    linarith

theorem sq_sum_nonneg (z : Vec ℂ) (n : Nat) : 0 ≤ ∑ r ∈ Finset.range n, normSq (z r) := Finset.sum_nonneg fun _ _ => normSq_nonneg _

/-- C205: the impedance of a passive circuit has no negative resistance at any frequency. -/
theorem C205_resistance (h : Sweep sqrt (C ++ [.I id a b src]) nv cmin gmin ph pts) (hs : ∀ e ∈ C, Silent ph e)
    (hj : ph id = some j) (h0 : j ≠ 0) {p : ℝ × (Fin m → ℂ)} (hp : p ∈ pts) : 0 ≤ (impedance (Rlc.ext p.2) a b j).re := by
  obtain ⟨-, g, h2, -, h4, -⟩ := C205_energy h hs hj h0 hp
  have := heat_nonneg C (fun e he => h.positive e (by simp [he])) (Rlc.ext p.2)
  have h6 := mul_nonneg h2 (sq_sum_nonneg (Rlc.ext p.2) nv)
  exact nonneg_of_mul_nonneg_right (by linarith : 0 ≤ normSq j * _) (normSq_pos.2 h0)

/-- C205: without inductors the voltage never leads the current. -/
theorem C205_capacitive (h : Sweep sqrt (C ++ [.I id a b src]) nv cmin gmin ph pts) (hs : ∀ e ∈ C, Silent ph e)
    (hj : ph id = some j) (h0 : j ≠ 0) (hl : ∀ e ∈ C, NoL e) {p : ℝ × (Fin m → ℂ)} (hp : p ∈ pts) :
    (impedance (Rlc.ext p.2) a b j).im ≤ 0 := by
  obtain ⟨h1, g, -, -, -, h5⟩ := C205_energy h hs hj h0 hp
  have hn : ∀ e ∈ C ++ [.I id a b src], NoL e := by
    intro e he
    rcases List.mem_append.1 he with he | he
    · exact hl e he
    · rw [List.mem_singleton.1 he]; trivial
  rw [magn, magn_noL hn, magn_noL hn] at h5
  have h6 := elec_nonneg C (fun e he => h.positive e (by simp [he])) (Rlc.ext p.2)
  have h7 := mul_nonneg h.cmin_nonneg (sq_sum_nonneg (Rlc.ext p.2) nv)
  have h8 : normSq j * (impedance (Rlc.ext p.2) a b j).im ≤ 0 := by
    rw [h5]
    refine mul_nonpos_of_nonneg_of_nonpos (by positivity) (by linarith)
  by_contra hc
  push Not at hc
  have := mul_pos (normSq_pos.2 h0) hc
  linarith

/-- C205: without capacitors the voltage never lags behind the current, if inductors are not coupled too closely. -/
theorem C205_inductive (hsq : ∀ v q, sqrt v = some q → q * q = v) (h : Sweep sqrt (C ++ [.I id a b src]) nv 0 gmin ph pts)
    (hs : ∀ e ∈ C, Silent ph e) (hj : ph id = some j) (h0 : j ≠ 0) (hl : ∀ e ∈ C, NoC e) (hlo : ∀ e ∈ C, Loose e)
    {p : ℝ × (Fin m → ℂ)} (hp : p ∈ pts) : 0 ≤ (impedance (Rlc.ext p.2) a b j).im := by
  obtain ⟨h1, g, -, -, -, h5⟩ := C205_energy h hs hj h0 hp
  have hn : ∀ e ∈ C ++ [.I id a b src], Loose e := by
    intro e he
    rcases List.mem_append.1 he with he | he
    · exact hlo e he
    · rw [List.mem_singleton.1 he]; trivial
  have hm := C09_magnetic_energy hsq h.built h.positive hn nv
  rw [elec_noC hl, zero_mul, sub_zero, sub_zero, magn] at h5
  have h8 : 0 ≤ normSq j * (impedance (Rlc.ext p.2) a b j).im := by
    rw [h5]
    have := hm (re (Rlc.ext p.2))
    have := hm (im (Rlc.ext p.2))
    positivity
  exact nonneg_of_mul_nonneg_right h8 (normSq_pos.2 h0)

/-- C205: without resistors, and with Gmin zero, the impedance is a pure reactance. -/
theorem C205_lossless (h : Sweep sqrt (C ++ [.I id a b src]) nv cmin 0 ph pts) (hs : ∀ e ∈ C, Silent ph e)
    (hj : ph id = some j) (h0 : j ≠ 0) (hl : ∀ e ∈ C, NoR e) {p : ℝ × (Fin m → ℂ)} (hp : p ∈ pts) :
    (impedance (Rlc.ext p.2) a b j).re = 0 := by
  obtain ⟨-, g, -, h3, h4, -⟩ := C205_energy h hs hj h0 hp
  rw [heat_noR hl, h3 rfl, zero_mul, add_zero] at h4
  exact (mul_eq_zero.1 h4).resolve_left (normSq_pos.2 h0).ne'

/-- C205: resistors alone give an impedance without reactance. -/
theorem C205_resistive (h : Sweep sqrt (C ++ [.I id a b src]) nv 0 gmin ph pts) (hs : ∀ e ∈ C, Silent ph e)
    (hj : ph id = some j) (h0 : j ≠ 0) (hl : ∀ e ∈ C, NoL e) (hc : ∀ e ∈ C, NoC e) {p : ℝ × (Fin m → ℂ)} (hp : p ∈ pts) :
    (impedance (Rlc.ext p.2) a b j).im = 0 := by
  obtain ⟨-, g, -, -, -, h5⟩ := C205_energy h hs hj h0 hp
  have hn : ∀ e ∈ C ++ [.I id a b src], NoL e := by
    intro e he
    rcases List.mem_append.1 he with he | he
    · exact hl e he
    · rw [List.mem_singleton.1 he]; trivial
  rw [magn, magn_noL hn, magn_noL hn, elec_noC hc] at h5
  simp only [zero_mul, add_zero, sub_zero, mul_zero] at h5
  exact (mul_eq_zero.1 h5).resolve_left (normSq_pos.2 h0).ne'

end Current

section Voltage
variable {sqrt : ℝ → Option ℝ} {C : List (Elem ℝ)} {nv m : Nat} {cmin gmin : ℝ} {ph : String → Option ℂ}
  {pts : List (ℝ × (Fin m → ℂ))} {id : String} {a b : Nat} {src : Src ℝ} {u : ℂ}

theorem given_V (hs : ∀ e ∈ C, Silent ph e) (hu : ph id = some u) (z : Vec ℂ) (h0 : u ≠ 0) :
    given (C ++ [.V id a b src]) nv ph z = (normSq u : ℂ) * admittance z (nv + (vdes C).length) u := by
  rw [given, sum_silent hs, List.map_append, List.map_singleton, brSum_last]
  · have : ((normSq u : ℝ) : ℂ) = (starRingEnd ℂ) u * u := by rw [mul_comm, Complex.mul_conj]
    rw [this, admittance]
    simp only [Stable.lift, takenI, acVal, hu, Option.getD_some, takenV, Elem.vde, vdes_lift, zero_add, if_true]
    field_simp
  · intro e he k
    obtain ⟨e', he', rfl⟩ := List.mem_map.1 he
    exact silent_V (hs e' he') nv z k

/-- C205: the same for the admittance seen by a voltage source. -/
theorem C205_admittance (h : Sweep sqrt (C ++ [.V id a b src]) nv cmin gmin ph pts) (hs : ∀ e ∈ C, Silent ph e)
    (hu : ph id = some u) (h0 : u ≠ 0) {p : ℝ × (Fin m → ℂ)} (hp : p ∈ pts) :
    0 ≤ (admittance (Rlc.ext p.2) (nv + (vdes C).length) u).re ∧
    ((∀ e ∈ C, NoL e) → 0 ≤ (admittance (Rlc.ext p.2) (nv + (vdes C).length) u).im) ∧
    ((∀ v q, sqrt v = some q → q * q = v) → (∀ e ∈ C, NoC e) → (∀ e ∈ C, Loose e) → cmin = 0 →
      (admittance (Rlc.ext p.2) (nv + (vdes C).length) u).im ≤ 0) ∧
    ((∀ e ∈ C, NoR e) → gmin = 0 → (admittance (Rlc.ext p.2) (nv + (vdes C).length) u).re = 0) := by
  obtain ⟨h1, g, h2, h3, h4, h5⟩ := h.power hp
  rw [given_V hs hu _ h0, Complex.re_ofReal_mul] at h4
  rw [given_V hs hu _ h0, Complex.im_ofReal_mul] at h5
  have hq := normSq_pos.2 h0
  have hz := sq_sum_nonneg (Rlc.ext p.2) nv
  have app : ∀ P : Elem ℝ → Prop, (∀ e ∈ C, P e) → P (.V id a b src) → ∀ e ∈ C ++ [.V id a b src], P e := by
    intro P h1 h2 e he
    rcases List.mem_append.1 he with he | he
    · exact h1 e he
    · rw [List.mem_singleton.1 he]; exact h2
  refine ⟨?_, fun hl => ?_, fun hsq hc hlo h0' => ?_, fun hr hg => ?_⟩
  · have := heat_nonneg _ h.positive (Rlc.ext p.2)
    have h6 := mul_nonneg h2 hz
    exact nonneg_of_mul_nonneg_right (by linarith : 0 ≤ normSq u * _) hq
  · have hn := app NoL hl trivial
    rw [magn, magn_noL hn, magn_noL hn, add_zero, sub_zero] at h5
    have h6 := elec_nonneg _ h.positive (Rlc.ext p.2)
    have h7 := mul_nonneg h.cmin_nonneg hz
    refine nonneg_of_mul_nonneg_right (?_ : 0 ≤ normSq u * _) hq
    rw [h5]
    positivity
  · have hm := C09_magnetic_energy hsq h.built h.positive (app Loose hlo trivial) nv
    rw [elec_noC (app NoC hc trivial), h0', zero_mul, add_zero, zero_sub, magn] at h5
    by_contra hc
    push Not at hc
    have h8 := mul_pos hq hc
    have := hm (re (Rlc.ext p.2))
    have := hm (im (Rlc.ext p.2))
    rw [h5, mul_neg] at h8
    have : 0 ≤ 2 * Real.pi * p.1 * (magForm (C ++ [.V id a b src]) nv (re (Rlc.ext p.2)) (re (Rlc.ext p.2)) +
      magForm (C ++ [.V id a b src]) nv (im (Rlc.ext p.2)) (im (Rlc.ext p.2))) := by positivity
    linarith
  · rw [heat_noR (app NoR hr trivial), h3 hg, zero_mul, add_zero] at h4
    exact (mul_eq_zero.1 h4).resolve_left hq.ne'

end Voltage

/-- a resistor in parallel with a capacitor, driven by a current -/
def par : List (Elem ℝ) := [.R "R1" 1 0 1, .C "C1" 1 0 1 none]

/-- three points of its sweep: the hypotheses are met -/
example : ∃ pts : List (ℝ × (Fin 1 → ℂ)), pts.length = 3 ∧
    Sweep (fun _ => none) (par ++ [.I "I1" 0 1 { dc := some 0 }]) 2 0 0 (fun s => if s = "I1" then some 1 else none) pts ∧
    (∀ e ∈ par, Silent (fun s => if s = "I1" then some 1 else none) e) ∧ (∀ e ∈ par, NoL e) ∧
    ∀ p ∈ pts, 0 ≤ (impedance (Rlc.ext p.2) 0 1 1).re ∧ (impedance (Rlc.ext p.2) 0 1 1).im ≤ 0 := by
  have hsil : ∀ e ∈ par, Silent (fun s => if s = "I1" then some 1 else none) e := by simp [par, Silent]
  have hnl : ∀ e ∈ par, NoL e := by simp [par, NoL]
  obtain ⟨s, D, h1, h2, h3, hreg⟩ : ∃ s D, generate (par ++ [.I "I1" 0 1 { dc := some 0 }]) 2 = .ok s ∧ s.size = 1 + 1 ∧
      generateAC (par ++ [.I "I1" 0 1 { dc := some 0 }]) 2 s.size 0 = .ok D ∧
      ∀ b w, ¬ Ac.Stuck (⟨reduce 1 s.M, reduce 1 D, 0, b, 2 - 1, 0⟩ : Ac.AcIn 1) w := by
    simp only [par, List.cons_append, List.nil_append]
    refine ⟨_, _, rfl, rfl, rfl, ?_⟩
    rintro b w ⟨-, h⟩
    rw [Matrix.det_fin_one] at h
    have := congrArg Complex.re h
    simp [Ac.Y, reduce, Mat.add, Mat.put, Elem.vde] at this
  rcases Ac.C120_linear (o := ⟨⟨true, true, true, 27⟩, false⟩) ⟨rfl, rfl, rfl, by decide, rfl⟩
    (⟨reduce 1 s.M, reduce 1 D, 0, reduceV 1 (genNac ((par ++ [Elem.I "I1" 0 1 { dc := some (0 : ℝ) }]).map
      (Stable.lift fun s => if s = "I1" then some 1 else none)) 2).2, 2 - 1, 0⟩) 1 3 (by norm_num)
    (by norm_num) 3 (by norm_num) 0 with ⟨-, i, -, h⟩ | ⟨pts, h4, -, h5, -⟩
  · exact absurd h (hreg _ _)
  · have hsw : Sweep (fun _ => none) (par ++ [.I "I1" 0 1 { dc := some 0 }]) 2 0 0
        (fun s => if s = "I1" then some 1 else none) pts :=
      ⟨by decide, Built.add (c := par) (Built.add (c := [.R "R1" 1 0 1]) (Built.add Built.nil (by simp) (by simp) (by simp [Elem.vde])) (by simp) (by simp) (by simp [Elem.vde])) (by simp) (by simp) (by simp [Elem.vde]), by simp [par, NodesLt], by simp [par, TwoPole], by simp [par, Positive], le_rfl, le_rfl,
        s, D, h1, h2, h3, ⟨⟨true, true, true, 27⟩, false⟩, 1, 3, 3, 0, ⟨rfl, rfl, rfl, by decide, rfl⟩, by norm_num, by norm_num, by norm_num, h4⟩
    refine ⟨pts, ?_, hsw, hsil, hnl, fun p hp => ?_⟩
    · have := congrArg List.length h5
      simpa using this
    · exact ⟨C205_resistance hsw hsil (by simp) one_ne_zero hp, C205_capacitive hsw hsil (by simp) one_ne_zero hnl hp⟩

end Verif.Immittance
