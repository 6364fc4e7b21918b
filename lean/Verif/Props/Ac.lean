import Verif.Model.Ac
import Verif.Props.Axes

/-!
C120: AC analysis solves the small-signal equations at each frequency of the sweep.
-/

namespace Verif.Ac
open Verif.Homotopy Verif.Axes Matrix
open Verif.Circuit (Err)

variable {m : Nat}

/-- the default options -/
structure Default (o : AOpts) : Prop where
  std : o.meth.std = true
  gmin : o.meth.gmin = true
  src : o.meth.src = true
  ngmin : 10 ≤ o.meth.ngmin
  damp : o.dampFirst = false

theorem attempt_regular {o : AOpts} (hd : o.dampFirst = false) (p : Matrix (Fin m) (Fin m) ℂ × (Fin m → ℂ))
    (h : p.1.det ≠ 0) (x : Fin m → ℂ) : ∃ z, attempt o p x = (z, true) ∧ p.1 *ᵥ z + p.2 = 0 := by
  unfold attempt solve
  rw [if_neg h]
  refine ⟨_, rfl, ?_⟩
  rw [hd]
  simp only [Bool.false_eq_true, if_false, one_smul]
  rw [mulVec_add, mulVec_mulVec, Matrix.mul_nonsing_inv _ (isUnit_iff_ne_zero.2 h), one_mulVec]
  abel

theorem attempt_singular (o : AOpts) (p : Matrix (Fin m) (Fin m) ℂ × (Fin m → ℂ)) (h : p.1.det = 0) (x : Fin m → ℂ) :
    attempt o p x = (x, false) := by
  unfold attempt solve
  rw [if_pos h]

theorem problem_gmin (c : AcIn m) (w : ℝ) (i : Nat) : problem c w (.gmin i) = (sysMat c w, c.Nac) := by
  have h : gminMat (m := m) 0 (1 / 10 ^ (i + 1)) = 0 := by
    ext i j
    simp [gminMat, Matrix.diagonal_apply]
  simp only [problem, h, zero_add]

/-- the state during Gmin stepping -/
def gState (i : Nat) (y : Option Sys) : State := ⟨⟨false, true, 0⟩, ⟨true, false, i⟩, {}, y⟩

/-- what happens at a frequency where the matrix with Gmin is regular -/
theorem solveAt_regular {o : AOpts} (ho : Default o) (c : AcIn m) (w : ℝ)
    (h : (sysMat c w + gminMat c.nn c.gmin).det ≠ 0) (x : Fin m → ℂ) :
    ∃ z, solveAt o c w x = .solved z ∧ (sysMat c w + gminMat c.nn c.gmin) *ᵥ z + c.Nac = 0 := by
  obtain ⟨z, h1, h2⟩ := attempt_regular ho.damp (problem c w .full) h x
  refine ⟨z, ?_, h2⟩
  have h0 : setNext o.meth init = ⟨⟨true, false, 0⟩, {}, {}, none⟩ := by simp [setNext, init, ho.std]
  unfold solveAt
  rw [h0, loopC]
  have hc : choose o.meth ⟨⟨true, false, 0⟩, {}, {}, none⟩ = .ok .full := by simp [choose]
  rw [hc]
  simp only [h1]
  simp [after]

theorem loopC_gmin {o : AOpts} (ho : Default o) (c : AcIn m) (w : ℝ) (h : (sysMat c w).det ≠ 0) (n i k : Nat)
    (hn : i + n = 9) (y : Option Sys) (x : Fin m → ℂ) :
    ∃ z, loopC o c w (n + 1 + k) (gState i y) x = .solved z ∧ sysMat c w *ᵥ z + c.Nac = 0 := by
  induction n generalizing i x y with
  | zero =>
    obtain rfl : i = 9 := by omega
    have h2 : choose o.meth (gState 9 y) = .ok (.gmin 9) := by
      have : 9 < o.meth.ngmin := by have := ho.ngmin; omega
      simp [choose, gState, this]
    obtain ⟨z, h1, hz⟩ := attempt_regular ho.damp (problem c w (.gmin 9)) (by rw [problem_gmin]; exact h) x
    rw [problem_gmin] at hz
    refine ⟨z, ?_, hz⟩
    rw [show 0 + 1 + k = k + 1 by omega, loopC, h2]
    simp only [h1]
    simp [after, gState]
  | succ n ih =>
    have h2 : choose o.meth (gState i y) = .ok (.gmin i) := by
      have : i < o.meth.ngmin := by have := ho.ngmin; omega
      simp [choose, gState, this]
    obtain ⟨z, h1, -⟩ := attempt_regular ho.damp (problem c w (.gmin i)) (by rw [problem_gmin]; exact h) x
    have h3 : after o.meth { gState i y with sys := some (.gmin i) } true = .next (gState (i + 1) (some (.gmin i))) := by
      have : i ≠ 9 := by omega
      simp [after, gState, this]
    have e : loopC o c w (n + 1 + 1 + k) (gState i y) x = loopC o c w (n + 1 + k) (gState (i + 1) (some (.gmin i))) z := by
      rw [show n + 1 + 1 + k = (n + 1 + k) + 1 by omega, loopC, h2]
      simp only [h1, h3]
    rw [e]
    exact ih (i + 1) (by omega) _ z

/-- what happens at a frequency where the matrix with Gmin is singular -/
theorem solveAt_singular {o : AOpts} (ho : Default o) (c : AcIn m) (w : ℝ)
    (h : (sysMat c w + gminMat c.nn c.gmin).det = 0) (x : Fin m → ℂ) :
    ((sysMat c w).det ≠ 0 → ∃ z, solveAt o c w x = .solved z ∧ sysMat c w *ᵥ z + c.Nac = 0) ∧
    ((sysMat c w).det = 0 → solveAt o c w x = .failed) := by
  have h0 : setNext o.meth init = ⟨⟨true, false, 0⟩, {}, {}, none⟩ := by simp [setNext, init, ho.std]
  have h1 := attempt_singular o (problem c w .full) h x
  have e : solveAt o c w x = loopC o c w 63 (gState 0 (some .full)) x := by
    unfold solveAt
    rw [h0, loopC]
    have hc : choose o.meth ⟨⟨true, false, 0⟩, {}, {}, none⟩ = .ok .full := by simp [choose]
    have ha : after o.meth ⟨⟨true, false, 0⟩, {}, {}, some .full⟩ false = .next (gState 0 (some .full)) := by
      simp [after, moreAvailable, setNext, gState, ho.std, ho.gmin]
    rw [hc]
    simp only [h1, ha]
  rw [e]
  constructor
  · intro hr
    exact loopC_gmin ho c w hr 9 0 53 rfl _ x
  · intro hs
    have hg := attempt_singular o (problem c w (.gmin 0)) (by rw [problem_gmin]; exact hs) x
    have hsrc := attempt_singular o (problem c w (.src 0)) h x
    have c1 : choose o.meth (gState 0 (some .full)) = .ok (.gmin 0) := by
      have : 0 < o.meth.ngmin := by have := ho.ngmin; omega
      simp [choose, gState, this]
    have a1 : after o.meth { gState 0 (some .full) with sys := some (.gmin 0) } false =
        .next ⟨⟨false, true, 0⟩, ⟨false, true, 0⟩, ⟨true, false, 0⟩, some (.gmin 0)⟩ := by
      simp [after, moreAvailable, setNext, gState, ho.gmin, ho.src]
    have c2 : choose o.meth ⟨⟨false, true, 0⟩, ⟨false, true, 0⟩, ⟨true, false, 0⟩, some (.gmin 0)⟩ = .ok (.src 0) := by
      simp [choose]
    have a2 : after o.meth ⟨⟨false, true, 0⟩, ⟨false, true, 0⟩, ⟨true, false, 0⟩, some (.src 0)⟩ false =
        .next ⟨⟨false, true, 0⟩, ⟨false, true, 0⟩, ⟨false, true, 0⟩, some (.src 0)⟩ := by
      simp [after, moreAvailable, setNext, ho.src]
    have c3 : choose o.meth ⟨⟨false, true, 0⟩, ⟨false, true, 0⟩, ⟨false, true, 0⟩, some (.src 0)⟩ = .ok (.src 0) := by
      simp [choose]
    have a3 : after o.meth ⟨⟨false, true, 0⟩, ⟨false, true, 0⟩, ⟨false, true, 0⟩, some (.src 0)⟩ false = .failure := by
      simp [after, moreAvailable]
    rw [loopC, c1]
    simp only [hg, a1]
    rw [loopC, c2]
    simp only [hsrc, a2]
    rw [loopC, c3]
    simp only [hsrc, a3]

/-- the small-signal matrix at the angular frequency `w`, with the conductance `g` from every node to the reference
(spec) -/
noncomputable def Y (c : AcIn m) (w g : ℝ) : Matrix (Fin m) (Fin m) ℂ := Matrix.of fun i j =>
  ((c.mna i j + c.J i j : ℝ) : ℂ) + Complex.I * w * c.AC i j + if i = j ∧ i.val < c.nn then (g : ℂ) else 0

theorem sysMat_eq (c : AcIn m) (w : ℝ) : sysMat c w = Y c w 0 := by
  ext i j
  simp [sysMat, Y]
  ring

theorem sysMat_gmin (c : AcIn m) (w : ℝ) : sysMat c w + gminMat c.nn c.gmin = Y c w c.gmin := by
  ext i j
  by_cases h : i = j
  · subst h
    by_cases hi : i.val < c.nn <;> simp [sysMat, Y, gminMat, hi] <;> ring
  · simp [sysMat, Y, gminMat, h]
    ring

/-- the small-signal equations at the angular frequency `w`: with the conductance Gmin at every node or, where that
matrix is singular, without it -/
def Solves (c : AcIn m) (w : ℝ) (z : Fin m → ℂ) : Prop :=
  ((Y c w c.gmin).det ≠ 0 ∧ Y c w c.gmin *ᵥ z + c.Nac = 0) ∨
  ((Y c w c.gmin).det = 0 ∧ (Y c w 0).det ≠ 0 ∧ Y c w 0 *ᵥ z + c.Nac = 0)

/-- no solution at `w` -/
def Stuck (c : AcIn m) (w : ℝ) : Prop := (Y c w c.gmin).det = 0 ∧ (Y c w 0).det = 0

theorem solveAt_cases {o : AOpts} (ho : Default o) (c : AcIn m) (w : ℝ) (x : Fin m → ℂ) :
    (∃ z, solveAt o c w x = .solved z ∧ Solves c w z ∧ ¬ Stuck c w) ∨ (solveAt o c w x = .failed ∧ Stuck c w) := by
  unfold Solves Stuck
  rw [← sysMat_gmin, ← sysMat_eq]
  by_cases h : (sysMat c w + gminMat c.nn c.gmin).det = 0
  · have h2 := solveAt_singular ho c w h x
    by_cases hs : (sysMat c w).det = 0
    · exact .inr ⟨h2.2 hs, h, hs⟩
    · obtain ⟨z, e, hz⟩ := h2.1 hs
      exact .inl ⟨z, e, .inr ⟨h, hs, hz⟩, fun hk => hs hk.2⟩
  · obtain ⟨z, e, hz⟩ := solveAt_regular ho c w h x
    exact .inl ⟨z, e, .inl ⟨h, hz⟩, fun hk => h hk.1⟩

theorem sweep_spec {o : AOpts} (ho : Default o) (c : AcIn m) (ws : List ℝ) (x : Fin m → ℂ)
    (acc : List (ℝ × (Fin m → ℂ))) :
    ((∃ w ∈ ws, Stuck c w) ∧ sweep o c ws x acc = some none) ∨
    ((∀ w ∈ ws, ¬ Stuck c w) ∧ ∃ pts, sweep o c ws x acc = some (some (acc ++ pts)) ∧
      List.Forall₂ (fun w p => p.1 = w / Real.pi / 2 ∧ Solves c w p.2) ws pts) := by
  induction ws generalizing x acc with
  | nil => exact .inr ⟨by simp, [], by simp [sweep], .nil⟩
  | cons w r ih =>
    rcases solveAt_cases ho c w x with ⟨z, e, hz, hk⟩ | ⟨e, hk⟩
    · rw [sweep, e]
      rcases ih z (acc ++ [(w / Real.pi / 2, z)]) with ⟨⟨w', hw', hs⟩, h⟩ | ⟨hn, pts, h, hf⟩
      · exact .inl ⟨⟨w', List.mem_cons_of_mem _ hw', hs⟩, h⟩
      · refine .inr ⟨?_, (w / Real.pi / 2, z) :: pts, ?_, .cons ⟨rfl, hz⟩ hf⟩
        · intro w' hw'
          rcases List.mem_cons.mp hw' with rfl | hw'
          · exact hk
          · exact hn w' hw'
        · simp only [h]
          simp
    · refine .inl ⟨⟨w, List.mem_cons_self .., hk⟩, ?_⟩
      rw [sweep, e]

/-- C120: a linear sweep with at least two points, default options: the result has one line for each of the equally
spaced frequencies, holding a solution of the small-signal equations at that frequency; the analysis returns `None`
exactly if at some frequency the equations have no unique solution, with and without Gmin. -/
theorem C120_linear {o : AOpts} (ho : Default o) (c : AcIn m) (start stop : ℝ) (h0 : start ≠ 0) (hs : start ≤ stop)
    (N : Nat) (hN : 2 ≤ N) (x0 : Fin m → ℂ) :
    let f : Nat → ℝ := fun i => start + i * ((stop - start) / (N - 1))
    (acAnalysis o c .lin start stop N x0 = .ok none ∧ ∃ i < N, Stuck c (2 * Real.pi * f i)) ∨
    ∃ pts, acAnalysis o c .lin start stop N x0 = .ok (some pts) ∧ (∀ i < N, ¬ Stuck c (2 * Real.pi * f i)) ∧
      pts.map (·.1) = (List.range N).map f ∧
      ∀ i p, pts[i]? = some p → Solves c (2 * Real.pi * f i) p.2 := by
  intro f
  obtain ⟨a, ha, hv⟩ := C19_values (2 * Real.pi * start) (2 * Real.pi * stop) N hN (N + 2) (by omega)
  have hw : omegas .lin start stop N (N + 2) = .ok ((List.range N).map fun i => 2 * Real.pi * f i) := by
    unfold omegas
    rw [if_neg h0, if_neg (not_lt.mpr hs), if_neg (by omega)]
    simp only [ha, hv]
    congr 1
    refine List.map_congr_left fun i _ => ?_
    simp only [f]
    have : ((N : ℝ) - 1) ≠ 0 := by
      have : (2 : ℝ) ≤ N := by exact_mod_cast hN
      intro h; linarith
    field_simp
  have hpi := Real.pi_ne_zero
  unfold acAnalysis
  rw [hw]
  rcases sweep_spec ho c ((List.range N).map fun i => 2 * Real.pi * f i) x0 [] with ⟨⟨w, hm, hk⟩, e⟩ | ⟨hn, pts, e, hf⟩
  · left
    rw [List.mem_map] at hm
    obtain ⟨i, hi, rfl⟩ := hm
    simp only [e]
    exact ⟨trivial, i, List.mem_range.mp hi, hk⟩
  · right
    rw [List.nil_append] at e
    refine ⟨pts, by simp only [e], ?_, ?_, ?_⟩
    · intro i hi
      exact hn _ (List.mem_map.mpr ⟨i, List.mem_range.mpr hi, rfl⟩)
    · have hl := hf.length_eq
      rw [List.length_map, List.length_range] at hl
      refine List.ext_getElem (by simp [← hl]) fun i h1 h2 => ?_
      have := hf.get (i := i) (by simpa using h2) (by simpa using h1)
      simp only [List.get_eq_getElem, List.getElem_map, List.getElem_range] at this
      simp only [List.getElem_map, List.getElem_range, this.1]
      field_simp
    · intro i p hp
      obtain ⟨hi, rfl⟩ := List.getElem?_eq_some_iff.mp hp
      have hl := hf.length_eq
      have := hf.get (i := i) (by rw [hl]; exact hi) hi
      simp only [List.get_eq_getElem, List.getElem_map, List.getElem_range] at this
      exact this.2

/-- C120: the same for a logarithmic sweep: `N` frequencies with constant ratio, from `start` to `stop`. -/
theorem C120_log {o : AOpts} (ho : Default o) (c : AcIn m) (start stop : ℝ) (h0 : 0 < start) (hs : start < stop)
    (N : Nat) (hN : 2 ≤ N) (x0 : Fin m → ℂ) :
    (acAnalysis o c .log start stop N x0 = .ok none ∧ ∃ f, start ≤ f ∧ f ≤ stop ∧ Stuck c (2 * Real.pi * f)) ∨
    ∃ pts : List (ℝ × (Fin m → ℂ)), acAnalysis o c .log start stop N x0 = .ok (some pts) ∧ pts.length = N ∧
      (∀ (i : Nat) p, pts[i]? = some p → start ≤ p.1 ∧ p.1 ≤ stop ∧ Solves c (2 * Real.pi * p.1) p.2) ∧
      (pts[0]?.map (·.1)) = some start ∧ (pts[N - 1]?.map (·.1)) = some stop ∧
      ∃ q, 1 < q ∧ ∀ (i : Nat) p p', pts[i]? = some p → pts[i + 1]? = some p' → p'.1 = q * p.1 := by
  have hpi := Real.pi_pos
  have hpi0 := hpi.ne'
  have hmin : 0 < 2 * Real.pi * start := by positivity
  have hmax : 2 * Real.pi * start < 2 * Real.pi * stop := by
    have : 0 < 2 * Real.pi := by positivity
    exact mul_lt_mul_of_pos_left hs this
  obtain ⟨l1, l2, l3, l4, l5, -⟩ := C20_log_axis _ _ hmin hmax N hN (N + 2) (by omega)
  have hw : omegas .log start stop N (N + 2) =
      .ok (collect logNext (N + 2) (logInit (2 * Real.pi * start) (2 * Real.pi * stop) N)) := by
    unfold omegas
    rw [if_neg h0.ne', if_neg (not_lt.mpr hs.le), if_neg (by omega)]
  set ws := collect logNext (N + 2) (logInit (2 * Real.pi * start) (2 * Real.pi * stop) N) with hws
  unfold acAnalysis
  rw [hw]
  rcases sweep_spec ho c ws x0 [] with ⟨⟨w, hm, hk⟩, e⟩ | ⟨-, pts, e, hf⟩
  · left
    have h2pi : 0 < 2 * Real.pi := by positivity
    have hw' : 2 * Real.pi * (w / (2 * Real.pi)) = w := mul_div_cancel₀ _ h2pi.ne'
    obtain ⟨ha, hb⟩ := l5 w hm
    rw [← hw'] at ha hb hk
    exact ⟨by simp only [e], _, le_of_mul_le_mul_left ha h2pi, le_of_mul_le_mul_left hb h2pi, hk⟩
  · right
    rw [List.nil_append] at e
    have hl := hf.length_eq
    have at' : ∀ (i : Nat) p, pts[i]? = some p → ∃ w, ws[i]? = some w ∧ w = 2 * Real.pi * p.1 ∧ Solves c w p.2 := by
      intro i p hp
      obtain ⟨hi, rfl⟩ := List.getElem?_eq_some_iff.mp hp
      have := hf.get (i := i) (by rw [hl]; exact hi) hi
      simp only [List.get_eq_getElem] at this
      refine ⟨_, List.getElem?_eq_getElem (by rw [hl]; exact hi), ?_, this.2⟩
      rw [this.1]; field_simp
    have conv : ∀ {p w : ℝ}, 2 * Real.pi * p = 2 * Real.pi * w → p = w := by
      intro p w h
      exact mul_left_cancel₀ (by positivity) h
    refine ⟨pts, by simp only [e], by rw [← hl, l1], ?_, ?_, ?_, ?_⟩
    · intro i p hp
      obtain ⟨w, h1, h2, h3⟩ := at' i p hp
      obtain ⟨ha, hb⟩ := l5 w (List.mem_of_getElem? h1)
      rw [h2] at ha hb h3
      have h2pi : 0 < 2 * Real.pi := by positivity
      exact ⟨le_of_mul_le_mul_left ha h2pi, le_of_mul_le_mul_left hb h2pi, h3⟩
    · have hi : 0 < pts.length := by rw [← hl, l1]; omega
      obtain ⟨w, h1, h2, -⟩ := at' 0 _ (List.getElem?_eq_getElem hi)
      rw [l2] at h1
      rw [List.getElem?_eq_getElem hi, Option.map_some]
      congr 1
      exact conv (h2.symm.trans (Option.some.inj h1).symm)
    · have hi : N - 1 < pts.length := by rw [← hl, l1]; omega
      obtain ⟨w, h1, h2, -⟩ := at' _ _ (List.getElem?_eq_getElem hi)
      rw [l3] at h1
      rw [List.getElem?_eq_getElem hi, Option.map_some]
      congr 1
      exact conv (h2.symm.trans (Option.some.inj h1).symm)
    · refine ⟨(logInit (2 * Real.pi * start) (2 * Real.pi * stop) N).inc, ?_, ?_⟩
      · -- two consecutive values exist
        have e0 : ws[1]? ≠ none := by rw [Ne, List.getElem?_eq_none_iff, l1]; omega
        obtain ⟨y, hy⟩ := Option.ne_none_iff_exists'.mp e0
        obtain ⟨h1, h2⟩ := l4 0 _ y l2 hy
        rw [← h1, lt_div_iff₀ hmin]
        linarith
      · intro i p p' hp hp'
        obtain ⟨w, h1, h2, -⟩ := at' i p hp
        obtain ⟨w', h1', h2', -⟩ := at' _ p' hp'
        obtain ⟨h3, -⟩ := l4 i w w' h1 h1'
        have hw0 : 0 < w := hmin.trans_le (l5 w (List.mem_of_getElem? h1)).1
        rw [div_eq_iff hw0.ne', h2, h2'] at h3
        refine conv ?_
        rw [h3]; ring

/-- C120 is false for the documented default: without a sweep type the analysis stops with an `AttributeError`,
although a logarithmic sweep is documented; and while a start frequency of 0 is refused, a linear sweep through 0 is
accepted. -/
theorem C120_default_refuted {o : AOpts} (ho : Default o) (c : AcIn m) (x0 : Fin m → ℂ) :
    (∀ start stop N, 0 < start → start ≤ stop → 2 ≤ N →
      acAnalysis o c .none start stop N x0 = .error .attr) ∧
    (∀ t stop N, acAnalysis o c t 0 stop N x0 = .error .value) ∧
    (∀ pts, acAnalysis o c .lin (-1) 1 3 x0 = .ok (some pts) → pts.map (·.1) = [-1, 0, 1]) := by
  refine ⟨?_, ?_, ?_⟩
  · intro start stop N h0 hs hN
    unfold acAnalysis omegas
    rw [if_neg h0.ne', if_neg (not_lt.mpr hs), if_neg (by omega)]
  · intro t stop N
    unfold acAnalysis omegas
    rw [if_pos rfl]
  · intro pts h
    rcases C120_linear ho c (-1) 1 (by norm_num) (by norm_num) 3 (by norm_num) x0 with ⟨h1, -⟩ | ⟨pts', h1, -, h2, -⟩
    · rw [h1] at h; cases h
    · rw [h1] at h
      cases h
      rw [h2]
      norm_num [List.range, List.range.loop]

/-- C120: a sweep with less than two points, or downwards, is refused, unless it is a single frequency, which is
computed with any sweep type that is known. -/
theorem C120_points {o : AOpts} (ho : Default o) (c : AcIn m) (x0 : Fin m → ℂ) :
    (∀ t start stop N, N < 2 → start ≠ stop → acAnalysis o c t start stop N x0 = .error .value) ∧
    (∀ t start stop N, stop < start → acAnalysis o c t start stop N x0 = .error .value) ∧
    (∀ t f, t = .lin ∨ t = .log → f ≠ 0 → ¬ Stuck c (2 * Real.pi * f) →
      ∃ z, acAnalysis o c t f f 1 x0 = .ok (some [(f, z)]) ∧ Solves c (2 * Real.pi * f) z) := by
  refine ⟨?_, ?_, ?_⟩
  · intro t start stop N hN h
    unfold acAnalysis omegas
    rw [if_pos (show N < 2 ∧ ¬ start = stop from ⟨hN, h⟩)]
    split_ifs <;> rfl
  · intro t start stop N h
    unfold acAnalysis omegas
    rw [if_pos h]
    split_ifs <;> rfl
  · intro t f ht hf hs
    have hw : omegas t f f 1 3 = .ok [2 * Real.pi * f] := by
      unfold omegas
      rw [if_neg hf, if_neg (lt_irrefl f), if_neg (by simp)]
      rcases ht with rfl | rfl
      · simp [linInit, collect, linNext]
      · simp [logInit, collect, logNext]
    have hpi := Real.pi_ne_zero
    unfold acAnalysis
    rw [hw]
    rcases sweep_spec ho c [2 * Real.pi * f] x0 [] with ⟨⟨w, hm, hk⟩, -⟩ | ⟨-, pts, e, hp⟩
    · rw [List.mem_singleton] at hm
      exact absurd (hm ▸ hk) hs
    · cases hp with
      | cons h1 h2 =>
        cases h2
        rename_i p
        refine ⟨p.2, ?_, h1.2⟩
        have : p = (f, p.2) := by
          refine Prod.ext ?_ rfl
          rw [h1.1]
          field_simp
        simp only [e, List.nil_append]
        rw [← this]

/-- 1 S and 1 F at one node, 1 A -/
noncomputable def rc : AcIn 1 := ⟨!![1], !![1], 0, ![1], 1, 0⟩

theorem rc_regular (w : ℝ) : ¬ Stuck rc w := by
  rintro ⟨-, h⟩
  have := congrArg Complex.re h
  simp [Y, rc] at this

example : Default ⟨⟨true, true, true, 27⟩, false⟩ := ⟨rfl, rfl, rfl, by decide, rfl⟩

/-- three points of an RC circuit -/
example : ∃ pts, acAnalysis ⟨⟨true, true, true, 27⟩, false⟩ rc .lin 1 3 3 0 = .ok (some pts) ∧
    pts.map (·.1) = [1, 2, 3] ∧ ∀ p ∈ pts, p.2 0 = -1 / (1 + Complex.I * (2 * Real.pi * p.1)) := by
  rcases C120_linear (o := ⟨⟨true, true, true, 27⟩, false⟩) ⟨rfl, rfl, rfl, by decide, rfl⟩ rc 1 3 (by norm_num)
    (by norm_num) 3 (by norm_num) 0 with ⟨-, i, -, h⟩ | ⟨pts, h1, -, h2, h3⟩
  · exact absurd h (rc_regular _)
  · refine ⟨pts, h1, by rw [h2]; norm_num [List.range, List.range.loop], ?_⟩
    intro p hp
    obtain ⟨i, hi⟩ := List.getElem?_of_mem hp
    have hf : p.1 = 1 + i * ((3 - 1) / ((3 : ℕ) - 1)) := by
      have : (pts.map (·.1))[i]? = some p.1 := by rw [List.getElem?_map, hi]; rfl
      rw [h2, List.getElem?_map] at this
      rcases hr : (List.range 3)[i]? with _ | k
      · rw [hr] at this; cases this
      · rw [hr] at this
        obtain ⟨_, hk⟩ := List.getElem?_eq_some_iff.mp hr
        simp only [List.getElem_range] at hk
        subst hk
        exact (Option.some.inj this).symm
    have hs : Solves rc (2 * Real.pi * (1 + i * ((3 - 1) / ((3 : ℕ) - 1)))) p.2 := h3 i p hi
    rw [← hf] at hs
    have hne : (1 + Complex.I * (2 * Real.pi * p.1)) ≠ 0 := by
      intro h
      have := congrArg Complex.re h
      simp at this
    rw [eq_div_iff hne]
    rcases hs with ⟨-, h⟩ | ⟨-, -, h⟩
    · have := congrFun h 0
      simp [Y, rc, mulVec, dotProduct] at this
      linear_combination this
    · have := congrFun h 0
      simp [Y, rc, mulVec, dotProduct] at this
      linear_combination this

/-- an isolated node: no result -/
example (w : ℝ) : Stuck (⟨0, 0, 0, ![1], 0, 0⟩ : AcIn 1) w := by
  constructor <;> simp [Y]

end Verif.Ac
