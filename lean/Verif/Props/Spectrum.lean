import Verif.Model.Spectrum
import Mathlib.Analysis.SpecialFunctions.Pow.Real

/-!
C211: printed spectra show every component, scaled to the largest one.
-/

namespace Verif.Spectrum
open Verif.Circuit (Err)

theorem argmax_spec {α : Type} [LinearOrder α] (l : List α) (i : Nat) (h : argmax l = some i) :
    ∃ x, l[i]? = some x ∧ (∀ y ∈ l, y ≤ x) ∧ ∀ j < i, ∀ y ∈ l[j]?, y < x := by
  induction l generalizing i with
  | nil => cases h
  | cons a l ih =>
    rw [argmax] at h
    split at h
    · rename_i h0
      cases h
      cases l with
      | nil => exact ⟨a, rfl, by simp, by simp⟩
      | cons b l =>
        rw [argmax] at h0
        split at h0
        · cases h0
        · split_ifs at h0
    · rename_i j hj
      obtain ⟨x, h1, h2, h3⟩ := ih j hj
      rw [h1] at h
      simp only [Option.mem_some_iff, forall_eq'] at h
      split_ifs at h with hx
      · cases h
        refine ⟨a, rfl, ?_, by simp⟩
        intro y hy
        rcases List.mem_cons.1 hy with rfl | hy
        · exact le_rfl
        · exact (h2 y hy).trans hx
      · cases h
        refine ⟨x, by simpa using h1, ?_, ?_⟩
        · intro y hy
          rcases List.mem_cons.1 hy with rfl | hy
          · exact (not_le.1 hx).le
          · exact h2 y hy
        · intro k hk y hy
          cases k with
          | zero =>
            simp only [List.getElem?_cons_zero, Option.mem_some_iff] at hy
            subst hy
            exact not_le.1 hx
          | succ k => exact h3 k (by omega) y (by simpa using hy)

theorem argmax_some {α : Type} [LinearOrder α] (a : α) (l : List α) : ∃ i, argmax (a :: l) = some i := by
  rw [argmax]
  split
  · exact ⟨_, rfl⟩
  · split_ifs
    · exact ⟨_, rfl⟩
    · exact ⟨_, rfl⟩

/-- The largest component of a spectrum, with its frequency. -/
theorem largest (f : List ℝ) (F : List ℂ) (hl : f.length = F.length) (hF : F ≠ []) :
    ∃ k fk zk, argmax (F.map fun z => ‖z‖) = some k ∧ f[k]? = some fk ∧ F[k]? = some zk ∧ ∀ z ∈ F, ‖z‖ ≤ ‖zk‖ := by
  obtain ⟨z0, zs, rfl⟩ := List.exists_cons_of_ne_nil hF
  obtain ⟨k, hk⟩ := argmax_some ‖z0‖ (zs.map fun z => ‖z‖)
  obtain ⟨x, h1, h2, -⟩ := argmax_spec _ k hk
  have hlt : k < (z0 :: zs).length := by
    have := (List.getElem?_eq_some_iff.1 h1).1
    simpa using this
  refine ⟨k, f[k], (z0 :: zs)[k], hk, List.getElem?_eq_getElem _, List.getElem?_eq_getElem _, ?_⟩
  intro z hz
  have hx : ‖(z0 :: zs)[k]‖ = x := by
    rw [← List.map_cons (f := fun z : ℂ => ‖z‖), List.getElem?_map, List.getElem?_eq_getElem hlt] at h1
    simpa using h1
  rw [hx]
  exact h2 _ (by rw [← List.map_cons (f := fun z : ℂ => ‖z‖)]; exact List.mem_map_of_mem hz)

theorem rows_spec (mag ang : ℝ) (n : Nat) (f : List ℝ) (F : List ℂ) (hl : F.length ≤ f.length) :
    ∃ rs, rows mag ang n f F = .ok rs ∧ rs.length = F.length ∧
      ∀ i r, rs[i]? = some r → r.n = n + i ∧ f[i]? = some r.freq ∧
        ∃ z, F[i]? = some z ∧ r.mag = ‖z‖ ∧ r.norm = quot ‖z‖ mag ∧ r.phase = deg z ∧ r.normPhase = deg z - ang := by
  induction F generalizing n f with
  | nil => exact ⟨[], by cases f <;> rfl, rfl, by simp⟩
  | cons z F ih =>
    cases f with
    | nil => simp at hl
    | cons g f =>
      obtain ⟨rs, h1, h2, h3⟩ := ih (n + 1) f (by simpa using hl)
      refine ⟨⟨n, g, ‖z‖, quot ‖z‖ mag, deg z, deg z - ang⟩ :: rs, by rw [rows, h1]; rfl, by simp [h2], ?_⟩
      intro i r hr
      cases i with
      | zero =>
        simp only [List.getElem?_cons_zero, Option.some.injEq] at hr
        subst hr
        exact ⟨rfl, rfl, z, rfl, rfl, rfl, rfl, rfl⟩
      | succ i =>
        obtain ⟨e1, e2, e3⟩ := h3 i r (by simpa using hr)
        exact ⟨by omega, by simpa using e2, by simpa using e3⟩

theorem frows_spec (g : ℂ → DB) (n : Nat) (f : List ℝ) (F : List ℂ) (hl : F.length ≤ f.length) :
    ∃ rs, frows g n f F = .ok rs ∧ rs.length = F.length ∧
      ∀ i r, rs[i]? = some r → r.n = n + i ∧ f[i]? = some r.freq ∧ ∃ z, F[i]? = some z ∧ r.mag = g z ∧ r.phase = deg z := by
  induction F generalizing n f with
  | nil => exact ⟨[], by cases f <;> rfl, rfl, by simp⟩
  | cons z F ih =>
    cases f with
    | nil => simp at hl
    | cons a f =>
      obtain ⟨rs, h1, h2, h3⟩ := ih (n + 1) f (by simpa using hl)
      refine ⟨⟨n, a, g z, deg z⟩ :: rs, by rw [frows, h1]; rfl, by simp [h2], ?_⟩
      intro i r hr
      cases i with
      | zero =>
        simp only [List.getElem?_cons_zero, Option.some.injEq] at hr
        subst hr
        exact ⟨rfl, rfl, z, rfl, rfl, rfl⟩
      | succ i =>
        obtain ⟨e1, e2, e3⟩ := h3 i r (by simpa using hr)
        exact ⟨by omega, by simpa using e2, by simpa using e3⟩

/-- C211: the table of `print_fourier`. It has one row for each harmonic, in order, with the number, frequency, magnitude and phase of the
harmonic; the reference is a component of the signal that none exceeds; normalised magnitudes are fractions of it, from 0 to 1, and
normalised phases are differences from its phase. -/
theorem C211_fourier (tol : ℝ) (label : Label) (t : String) (ht : title label = .ok t) (f : List ℝ) (z0 : ℂ) (zs : List ℂ)
    (hl : f.length = (z0 :: zs).length) (him : |z0.im| < tol) (thd : ℝ) :
    ∃ T, printFourier tol label f (z0 :: zs) thd = .ok T ∧ T.title = t ∧ T.dc = z0.re ∧ T.thd = 100 * thd ∧
      (∃ (k : Nat) (zk : ℂ), f[k]? = some T.refFreq ∧ (z0 :: zs)[k]? = some zk ∧ T.refMag = ‖zk‖ ∧ T.refPhase = deg zk) ∧
      (∀ z ∈ z0 :: zs, ‖z‖ ≤ T.refMag) ∧ T.rows.length = zs.length ∧
      ∀ i r, T.rows[i]? = some r → r.n = i + 1 ∧ f[i + 1]? = some r.freq ∧
        (∃ z, (z0 :: zs)[i + 1]? = some z ∧ r.mag = ‖z‖ ∧ r.phase = deg z) ∧ r.normPhase = r.phase - T.refPhase ∧
        (T.refMag ≠ 0 → ∃ q, r.norm = some q ∧ q * T.refMag = r.mag ∧ 0 ≤ q ∧ q ≤ 1) := by
  obtain ⟨k, fk, zk, h1, h2, h3, h4⟩ := largest f (z0 :: zs) hl (by simp)
  obtain ⟨g0, gs, rfl⟩ : ∃ a l, f = a :: l := by
    cases f with
    | nil => simp at hl
    | cons a l => exact ⟨a, l, rfl⟩
  obtain ⟨rs, r1, r2, r3⟩ := rows_spec ‖zk‖ (deg zk) 1 gs zs (by simp at hl; omega)
  refine ⟨⟨t, z0.re, fk, ‖zk‖, deg zk, rs, 100 * thd⟩, ?_, rfl, rfl, rfl, ⟨k, zk, h2, h3, rfl, rfl⟩, h4, r2, ?_⟩
  · rw [printFourier, ht]
    simp only [bind, Except.bind, realIfClose, if_pos him, h1, h2, h3, List.tail_cons, r1]
  · intro i r hr
    obtain ⟨e1, e2, z, e3, e4, e5, e6, e7⟩ := r3 i r hr
    refine ⟨by omega, by simpa using e2, ⟨z, by simpa using e3, e4, e6⟩, by rw [e7, e6], ?_⟩
    intro hne
    have hz : ‖z‖ ≤ ‖zk‖ := h4 z (List.mem_cons_of_mem _ (List.mem_of_getElem? e3))
    have hpos : 0 < ‖zk‖ := lt_of_le_of_ne (norm_nonneg _) (Ne.symm hne)
    refine ⟨‖z‖ / ‖zk‖, by rw [e5, quot, if_neg hne], ?_, by positivity, ?_⟩
    · rw [e4]
      exact div_mul_cancel₀ _ hne
    · exact (div_le_one hpos).2 hz

/-- C211: phases are degrees in (-180, 180], and the phase and magnitude of a row give the component back. -/
theorem C211_component (z : ℂ) : -180 < deg z ∧ deg z ≤ 180 ∧
    z = ‖z‖ * (Complex.cos ((deg z * (Real.pi / 180) : ℝ) : ℂ) + Complex.sin ((deg z * (Real.pi / 180) : ℝ) : ℂ) * Complex.I) := by
  have hpi := Real.pi_pos
  have h1 := Complex.neg_pi_lt_arg z
  have h2 := Complex.arg_le_pi z
  have h3 : deg z * (Real.pi / 180) = Complex.arg z := by
    unfold deg
    field_simp
  refine ⟨?_, ?_, ?_⟩
  · unfold deg
    have := mul_lt_mul_of_pos_right h1 (show (0 : ℝ) < 180 / Real.pi by positivity)
    calc (-180 : ℝ) = -Real.pi * (180 / Real.pi) := by field_simp
      _ < _ := this
  · unfold deg
    have := mul_le_mul_of_nonneg_right h2 (show (0 : ℝ) ≤ 180 / Real.pi by positivity)
    calc _ ≤ Real.pi * (180 / Real.pi) := this
      _ = 180 := by field_simp
  · rw [h3, ← Complex.exp_mul_I]
    exact (Complex.norm_mul_exp_arg_mul_I z).symm

/-- The magnitude with a level in decibels. -/
def Level (d : DB) (x : ℝ) : Prop :=
  match d with
  | .fin y => x = (10 : ℝ) ^ (y / 20)
  | .ninf => x = 0
  | .nan => False

theorem level_dB (x : ℝ) (hx : 0 ≤ x) : Level (dB x) x := by
  unfold dB
  split_ifs with h
  · exact h
  · have hp : 0 < x := lt_of_le_of_ne hx (Ne.symm h)
    show x = (10 : ℝ) ^ (20 * Real.logb 10 x / 20)
    rw [mul_div_cancel_left₀ _ (by norm_num), Real.rpow_logb (by norm_num) (by norm_num) hp]

theorem level_sub (x c : ℝ) (hx : 0 ≤ x) (hc : 0 < c) : Level ((dB x).sub (dB c)) (x / c) := by
  have e : dB c = .fin (20 * Real.logb 10 c) := if_neg hc.ne'
  rw [e]
  by_cases h : x = 0
  · rw [h, dB, if_pos rfl]
    show (0 : ℝ) / c = 0
    simp
  · have hp : 0 < x := lt_of_le_of_ne hx (Ne.symm h)
    rw [dB, if_neg h]
    show x / c = (10 : ℝ) ^ ((20 * Real.logb 10 x - 20 * Real.logb 10 c) / 20)
    rw [← mul_sub, mul_div_cancel_left₀ _ (by norm_num), Real.rpow_sub (by norm_num), Real.rpow_logb (by norm_num) (by norm_num) hp,
      Real.rpow_logb (by norm_num) (by norm_num) hc]

theorem spectrum_spec (t w unit : String) (carrier : Option (ℝ × DB)) (g : ℂ → DB) (f0 f1 : ℝ) (fs : List ℝ) (z0 : ℂ) (zs : List ℂ)
    (hl : zs.length = fs.length + 1) (thd : Option ℝ) :
    ∃ T, spectrum t w unit carrier g (f0 :: f1 :: fs) (z0 :: zs) thd = .ok T ∧ T.title = t ∧ T.window = w ∧ T.unit = unit ∧
      T.start = f1 ∧ (f0 :: f1 :: fs).getLast? = some T.stop ∧
      T.carrier = carrier ∧ T.dc = g z0 ∧ T.thd = thd.map (100 * ·) ∧ T.rows.length = zs.length ∧
      ∀ i r, T.rows[i]? = some r → r.n = i + 1 ∧ (f0 :: f1 :: fs)[i + 1]? = some r.freq ∧
        ∃ z, (z0 :: zs)[i + 1]? = some z ∧ r.mag = g z ∧ r.phase = deg z := by
  obtain ⟨rs, h1, h2, h3⟩ := frows_spec g 1 (f1 :: fs) zs (by simp; omega)
  refine ⟨⟨t, w, f1, (f1 :: fs).getLastD f0, unit, carrier, g z0, rs, thd.map (100 * ·)⟩, ?_, rfl, rfl, rfl, rfl, ?_, rfl, rfl, rfl, h2, ?_⟩
  · rw [spectrum]
    simp only [bind, Except.bind, h1]
  · simp [List.getLast?_eq_getLast_of_ne_nil, List.getLastD_eq_getLast?]
  · intro i r hr
    obtain ⟨e1, e2, z, e3, e4⟩ := h3 i r hr
    exact ⟨by omega, by simpa using e2, z, by simpa using e3, e4⟩

/-- C211: the table of `print_spicefft` without normalisation. One row for each component but the first, which is in a line of its own; the
levels are those of the magnitudes. -/
theorem C211_levels (label : Label) (t w : String) (ht : title label = .ok t) (window : Option String) (hw : windowName window = .ok w)
    (f0 f1 : ℝ) (fs : List ℝ) (z0 : ℂ) (zs : List ℂ) (hl : zs.length = fs.length + 1) (thd : Option ℝ) (u : String)
    (hu : u.toUpper = "UNORM") :
    ∃ T, printFft label (f0 :: f1 :: fs) (z0 :: zs) thd u window = .ok T ∧ T.title = t ∧ T.window = w ∧ T.unit = "dB" ∧
      T.start = f1 ∧ (f0 :: f1 :: fs).getLast? = some T.stop ∧ T.thd = thd.map (100 * ·) ∧
      T.carrier = none ∧ Level T.dc ‖z0‖ ∧ T.rows.length = zs.length ∧
      ∀ i r, T.rows[i]? = some r → r.n = i + 1 ∧ (f0 :: f1 :: fs)[i + 1]? = some r.freq ∧
        ∃ z, (z0 :: zs)[i + 1]? = some z ∧ Level r.mag ‖z‖ ∧ r.phase = deg z := by
  obtain ⟨T, h, e1, e2, e3, e4, e5, e6, e7, e8, e9, e10⟩ := spectrum_spec t w "dB" none (fun z => dB ‖z‖) f0 f1 fs z0 zs hl thd
  refine ⟨T, ?_, e1, e2, e3, e4, e5, e8, e6, ?_, e9, ?_⟩
  · rw [printFft, ht]
    simp only [bind, Except.bind, hw, hu]
    rw [if_neg (by decide), if_pos trivial, h]
  · rw [e7]
    exact level_dB _ (norm_nonneg _)
  · intro i r hr
    obtain ⟨a, b, z, c, d, e⟩ := e10 i r hr
    refine ⟨a, b, z, c, ?_, e⟩
    rw [d]
    exact level_dB _ (norm_nonneg _)

/-- C211: with normalisation, levels are those of fractions of a component that none exceeds, the carrier, so that no level is above 0. -/
theorem C211_normalised (label : Label) (t w : String) (ht : title label = .ok t) (window : Option String)
    (hw : windowName window = .ok w) (f0 f1 : ℝ) (fs : List ℝ) (z0 : ℂ) (zs : List ℂ) (hl : zs.length = fs.length + 1)
    (hz : ∃ z ∈ z0 :: zs, z ≠ 0) (thd : Option ℝ) (u : String) (hu : u.toUpper = "NORM") :
    ∃ (T : FTable) (k : Nat) (fk : ℝ) (zk : ℂ) (d : DB), printFft label (f0 :: f1 :: fs) (z0 :: zs) thd u window = .ok T ∧ T.title = t ∧ T.window = w ∧ T.unit = "dBc" ∧
      T.start = f1 ∧ (f0 :: f1 :: fs).getLast? = some T.stop ∧ T.thd = thd.map (100 * ·) ∧
      (f0 :: f1 :: fs)[k]? = some fk ∧ (z0 :: zs)[k]? = some zk ∧ zk ≠ 0 ∧ (∀ z ∈ z0 :: zs, ‖z‖ ≤ ‖zk‖) ∧
      T.carrier = some (fk, d) ∧ Level d ‖zk‖ ∧ Level T.dc (‖z0‖ / ‖zk‖) ∧ T.rows.length = zs.length ∧
      ∀ i r, T.rows[i]? = some r → r.n = i + 1 ∧ (f0 :: f1 :: fs)[i + 1]? = some r.freq ∧
        (∃ z, (z0 :: zs)[i + 1]? = some z ∧ Level r.mag (‖z‖ / ‖zk‖) ∧ r.phase = deg z) ∧ ∀ x, r.mag = .fin x → x ≤ 0 := by
  obtain ⟨k, fk, zk, h1, h2, h3, h4⟩ := largest (f0 :: f1 :: fs) (z0 :: zs) (by simp [hl]) (by simp)
  have hpos : 0 < ‖zk‖ := by
    obtain ⟨z, hz1, hz2⟩ := hz
    exact (norm_pos_iff.2 hz2).trans_le (h4 z hz1)
  obtain ⟨T, h, e1, e2, e3, e4, e5, e6, e7, e8, e9, e10⟩ := spectrum_spec t w "dBc" (some (fk, dB ‖zk‖))
    (fun z => (dB ‖z‖).sub (dB ‖zk‖)) f0 f1 fs z0 zs hl thd
  refine ⟨T, k, fk, zk, dB ‖zk‖, ?_, e1, e2, e3, e4, e5, e8, h2, h3, norm_pos_iff.1 hpos, h4, e6, level_dB _ hpos.le, ?_, e9, ?_⟩
  · rw [printFft, ht]
    simp only [bind, Except.bind, hw, hu, h1, h2, h3]
    rw [if_pos trivial, h]
  · rw [e7]
    exact level_sub _ _ (norm_nonneg _) hpos
  · intro i r hr
    obtain ⟨a, b, z, c, d, e⟩ := e10 i r hr
    have hle := h4 z (List.mem_of_getElem? c)
    have hlev : Level r.mag (‖z‖ / ‖zk‖) := by
      rw [d]
      exact level_sub _ _ (norm_nonneg _) hpos
    refine ⟨a, b, ⟨z, c, hlev, e⟩, ?_⟩
    intro x hx
    rw [hx] at hlev
    have h5 : (10 : ℝ) ^ (x / 20) ≤ 1 := by
      have : ‖z‖ / ‖zk‖ = (10 : ℝ) ^ (x / 20) := hlev
      rw [← this]
      exact (div_le_one hpos).2 hle
    by_contra hn
    have := Real.one_lt_rpow (show (1 : ℝ) < 10 by norm_num) (show 0 < x / 20 by linarith)
    linarith

/-- C211: other formats and windows are refused. -/
theorem C211_refused (label : Label) (t : String) (ht : title label = .ok t) (f : List ℝ) (F : List ℂ) (thd : Option ℝ) (u : String)
    (window : Option String) :
    (u.toUpper ≠ "NORM" → u.toUpper ≠ "UNORM" → printFft label f F thd u window = .error .value) ∧
    (∀ w, windowName window = .ok w → (window.getD "RECT").toUpper ∈ ["RECT", "BART", "HANN", "HAMM", "BLACK", "HARRIS", "GAUSS", "KAISER"]) ∧
    ((window.getD "RECT").toUpper ∉ ["RECT", "BART", "HANN", "HAMM", "BLACK", "HARRIS", "GAUSS", "KAISER"] → f.length = F.length →
      printFft label f F thd u window = .error .value) := by
  have key : ∀ s : String, (windowNames.lookup s).isSome = true →
      s ∈ ["RECT", "BART", "HANN", "HAMM", "BLACK", "HARRIS", "GAUSS", "KAISER"] := by
    intro s hs
    by_contra hn
    simp only [List.mem_cons, List.not_mem_nil, or_false, not_or] at hn
    obtain ⟨a1, a2, a3, a4, a5, a6, a7, a8⟩ := hn
    have e : ∀ a b : String, a ≠ b → (a == b) = false := fun a b h => by simpa using h
    simp only [windowNames, List.lookup, e _ _ a1, e _ _ a2, e _ _ a3, e _ _ a4, e _ _ a5, e _ _ a6, e _ _ a7, e _ _ a8] at hs
    cases hs
  refine ⟨?_, ?_, ?_⟩
  · intro h1 h2
    rw [printFft, ht]
    simp only [bind, Except.bind, if_neg h1, if_neg h2]
  · intro w hw
    apply key
    unfold windowName at hw
    split at hw
    · rename_i n hn
      rw [hn]; rfl
    · cases hw
  · intro hn hl
    have hw : windowName window = .error .value := by
      unfold windowName
      split
      · rename_i n h
        exact absurd (key _ (by rw [h]; rfl)) hn
      · rfl
    rw [printFft, ht]
    simp only [bind, Except.bind, hw]
    split_ifs
    · cases F with
      | nil => rfl
      | cons z0 zs =>
        obtain ⟨k, fk, zk, h1, h2, h3, -⟩ := largest f (z0 :: zs) hl (by simp)
        simp only [h1, h2, h3]
    · rfl
    · rfl

/-- The names of the windows, from the documentation of `spicefft` (fourier.py:269-278). -/
def documented : List (String × String) :=
  [("RECT", "RECTANGULAR"), ("BART", "BARTLETT"), ("HANN", "HANNING"), ("HAMM", "HAMMING"), ("BLACK", "BLACKMAN"),
    ("HARRIS", "BLACKMAN-HARRIS"), ("GAUSS", "GAUSSIAN"), ("KAISER", "KAISER")]

/-- C211: six of the eight windows are named in the table as in the documentation, and so is the window used if none is given. -/
theorem C211_window_partial (w n : String) (h : (w, n) ∈ documented) (h1 : w ≠ "BLACK") (h2 : w ≠ "HARRIS") :
    windowName (some w) = .ok n ∧ windowName none = .ok "RECTANGULAR" := by
  simp only [documented, List.mem_cons, Prod.mk.injEq, List.not_mem_nil, or_false] at h
  rcases h with ⟨rfl, rfl⟩ | ⟨rfl, rfl⟩ | ⟨rfl, rfl⟩ | ⟨rfl, rfl⟩ | ⟨rfl, rfl⟩ | ⟨rfl, rfl⟩ | ⟨rfl, rfl⟩ | ⟨rfl, rfl⟩
  all_goals first | exact absurd rfl h1 | exact absurd rfl h2 | exact ⟨by decide +kernel, by decide +kernel⟩

/-- C211 refuted: the table of a spectrum taken with Blackman's window names the window of Blackman and Harris. -/
theorem C211_window_refuted : ("BLACK", "blackman") ∈ windowUsed ∧ ("HARRIS", "blackmanharris") ∈ windowUsed ∧
    windowName (some "black") = .ok "BLACKMAN-HARRIS" ∧ windowName (some "harris") ≠ .ok "BLACKMAN-HARRIS" := by
  decide +kernel

/-- C211 refuted: the carrier is no oscillation if the signal has a large mean value: a sine of magnitude 1 at 50 Hz on top of a constant
gets a normalised magnitude of 1/10. -/
theorem C211_carrier_refuted : ∃ T, printFourier 1 (.str "V1") [0, 50] [10, 1] 0 = .ok T ∧ T.refFreq = 0 ∧
    ∃ r, T.rows = [r] ∧ r.freq = 50 ∧ r.norm = some (1 / 10) := by
  have h : argmax [‖(10 : ℂ)‖, ‖(1 : ℂ)‖] = some 0 := by
    simp [argmax]
  have hn : quot ‖(1 : ℂ)‖ ‖(10 : ℂ)‖ = some (1 / 10) := by
    rw [quot, if_neg (by simp)]
    simp
  refine ⟨⟨"V1", 10, 0, ‖(10 : ℂ)‖, deg 10, [⟨1, 50, ‖(1 : ℂ)‖, quot ‖(1 : ℂ)‖ ‖(10 : ℂ)‖, deg 1, deg 1 - deg 10⟩], 100 * 0⟩, ?_, rfl,
    _, rfl, rfl, hn⟩
  rw [printFourier]
  simp only [title, bind, Except.bind, List.map_cons, List.map_nil, h, realIfClose, List.getElem?_cons_zero, List.tail_cons, rows]
  norm_num

/-- C211 refuted: a silent signal has no normalised magnitudes, they are nan. -/
theorem C211_silent_refuted (n : Nat) (f : List ℝ) (hf : f.length = n + 1) (tol : ℝ) (htol : 0 < tol) (label : Label) (t : String)
    (ht : title label = .ok t) (thd : ℝ) :
    ∃ T, printFourier tol label f (List.replicate (n + 1) 0) thd = .ok T ∧ T.rows.length = n ∧ ∀ r ∈ T.rows, r.norm = none := by
  have hl : f.length = ((0 : ℂ) :: List.replicate n 0).length := by simp [hf]
  obtain ⟨k, fk, zk, h1, h2, h3, h4⟩ := largest f (0 :: List.replicate n 0) hl (by simp)
  have hzk : zk = 0 := by
    have := List.mem_of_getElem? h3
    rw [← List.replicate_succ] at this
    exact List.eq_of_mem_replicate this
  obtain ⟨g0, gs, rfl⟩ : ∃ a l, f = a :: l := by
    cases f with
    | nil => simp at hl
    | cons a l => exact ⟨a, l, rfl⟩
  obtain ⟨rs, r1, r2, r3⟩ := rows_spec ‖zk‖ (deg zk) 1 gs (List.replicate n 0) (by simp at hf ⊢; omega)
  refine ⟨⟨t, 0, fk, ‖zk‖, deg zk, rs, 100 * thd⟩, ?_, by simpa using r2, ?_⟩
  · rw [List.replicate_succ, printFourier, ht]
    have him : |(0 : ℂ).im| < tol := by simpa using htol
    simp only [bind, Except.bind, realIfClose, if_pos him, h1, h2, h3, List.tail_cons, r1, Complex.zero_re]
  · intro r hr
    obtain ⟨i, hi⟩ := List.getElem?_of_mem hr
    obtain ⟨-, -, z, -, -, e, -⟩ := r3 i r hi
    rw [e, quot, hzk, if_pos (by simp)]

/-- the hypotheses of `C211_normalised` -/
example : title (.tup [some "Vn1", some "Vn2"]) = .ok "Vn1 - Vn2" ∧ windowName (some "hann") = .ok "HANNING" ∧
    "norm".toUpper = "NORM" ∧ "unorm".toUpper = "UNORM" ∧ title (.tup [some "Vn1", none]) = .ok "Vn1" := by
  decide +kernel

end Verif.Spectrum
