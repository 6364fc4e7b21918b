import Verif.Model.Op
import Verif.Props.Newton
import Mathlib.Tactic.NormNum
import Mathlib.Tactic.IntervalCases

/-!
C119: an operating point that is reported solves the circuit, with the Gmin it is reported with.
-/

namespace Verif.Op
open Verif.Homotopy Matrix
open Verif.Conv (Tol)

variable {K : Type} [Field K] [LinearOrder K] [IsStrictOrderedRing K]

/-! ### Any circuit -/

/-- how the Newton solver was called last -/
def FromNewton {m : Nat} (o : OOpts K) (p : Newton.Problem K m) (x : Fin m → K) : Prop :=
  ∃ x0 r, Newton.mdnSolver o.newton o.tol p o.maxit (some x0) = .ok r ∧ r.converged = true ∧ r.x = x

omit [IsStrictOrderedRing K] in
theorem attempt_conv {m : Nat} {o : OOpts K} {p : Newton.Problem K m} {x x' : Fin m → K}
    (h : attempt o p x = some (x', true)) : FromNewton o p x' := by
  unfold attempt at h
  split at h
  · rename_i r hr
    simp only [Option.some.injEq, Prod.mk.injEq] at h
    exact ⟨x, r, hr, h.2, h.1⟩
  · simp at h
  · simp at h

theorem after_success {o : Homotopy.Opts} {s : State} {conv : Bool} (h : after o s conv = .success) :
    conv = true ∧ (s.src.enabled = true → s.src.index = 9) ∧ (s.gm.enabled = true → s.gm.index = 9) := by
  unfold after at h
  cases conv with
  | false => simp only [Bool.not_false, if_true] at h; split at h <;> cases h
  | true =>
    simp only [Bool.not_true, Bool.false_eq_true, if_false] at h
    split at h
    · cases h
    · split at h
      · cases h
      · rename_i h1 h2
        refine ⟨rfl, fun e => ?_, fun e => ?_⟩
        · by_contra hc; exact h1 (by simp [e, hc])
        · by_contra hc; exact h2 (by simp [e, hc])

/-- what `choose` can choose when the pass that follows succeeds -/
theorem choose_cases {o : Homotopy.Opts} {s : State} {y : Sys} (h : choose o s = .ok y) :
    (s.std.enabled = true ∧ y = .full) ∨ (s.gm.enabled = true ∧ y = .gmin s.gm.index) ∨
    (s.src.enabled = true ∧ y = .src s.src.index) ∨
    (s.std.enabled = false ∧ s.gm.enabled = false ∧ s.src.enabled = false ∧ s.sys = some y) := by
  unfold choose at h
  split at h
  · rename_i h1; cases h; exact .inl ⟨h1, rfl⟩
  · rename_i h1
    split at h
    · rename_i h2
      split at h
      · cases h; exact .inr (.inl ⟨h2, rfl⟩)
      · cases h
    · rename_i h2
      split at h
      · rename_i h3
        split at h
        · cases h; exact .inr (.inr (.inl ⟨h3, rfl⟩))
        · cases h
      · rename_i h3
        split at h
        · rename_i z hz
          cases h
          exact .inr (.inr (.inr ⟨by simpa using h1, by simpa using h2, by simpa using h3, hz⟩))
        · cases h

/-- with both homotopies switched off, no other system than the circuit is ever solved -/
structure StdOnly (s : State) : Prop where
  gm : s.gm.enabled = false
  src : s.src.enabled = false
  sys : ∀ y, s.sys = some y → y = .full

theorem stdOnly_next {o : Homotopy.Opts} (hg : o.gmin = false) (hs : o.src = false) {s : State} (h : StdOnly s) :
    StdOnly (setNext o s) := by
  unfold setNext
  obtain ⟨h1, h2, h3⟩ := h
  simp only [h1, h2, hg, hs, Bool.false_eq_true, if_false, Bool.and_false]
  constructor <;> (split <;> split <;> simp_all)

omit [IsStrictOrderedRing K] in
theorem loopX_std {m : Nat} (o : OOpts K) (hg : o.meth.gmin = false) (hs : o.meth.src = false) (c : Circ K m) (g : K)
    (k : Nat) (s : State) (x z : Fin m → K) (h : StdOnly s) (hz : loopX o c g k s x = .solved z) :
    FromNewton o (problem c g .full) z := by
  induction k generalizing s x with
  | zero => simp [loopX] at hz
  | succ k ih =>
    unfold loopX at hz
    split at hz
    · cases hz
    · rename_i y hy
      have hyf : y = .full := by
        rcases choose_cases hy with ⟨_, e⟩ | ⟨e, _⟩ | ⟨e, _⟩ | ⟨_, _, _, e⟩
        · exact e
        · rw [h.gm] at e; cases e
        · rw [h.src] at e; cases e
        · exact h.sys y e
      subst hyf
      split at hz
      · cases hz
      · rename_i x' conv ha
        have h' : StdOnly { s with sys := some .full } := ⟨h.gm, h.src, by rintro y ⟨⟩; rfl⟩
        split at hz
        · rename_i s' hs'
          refine ih s' x' ?_ hz
          unfold after at hs'
          split at hs'
          · split at hs'
            · cases hs'; exact stdOnly_next hg hs h'
            · cases hs'
          · simp [h.gm, h.src] at hs'
        · rename_i hsucc
          obtain ⟨e, -⟩ := after_success hsucc
          cases hz
          subst e
          exact attempt_conv ha
        · cases hz

omit [IsStrictOrderedRing K] in
/-- C119: with Gmin and source stepping switched off, a reported operating point is a converged Newton solution of
the circuit loaded with exactly the Gmin it is reported with. Missing: the default options (see the refutation). -/
theorem C119_reported_partial {m : Nat} (o : OOpts K) (hg : o.meth.gmin = false) (hs : o.meth.src = false)
    (c : Circ K m) (gmin : K) (x0 : Option (Fin m → K)) (s : OpSol K m)
    (h : opAnalysis o c gmin x0 = some (some s)) :
    (s.gmin = gmin ∨ s.gmin = 0) ∧ FromNewton o (problem c s.gmin .full) s.x := by
  have hstd : StdOnly (setNext o.meth init) := stdOnly_next hg hs ⟨rfl, rfl, by rintro y ⟨⟩⟩
  unfold opAnalysis at h
  split at h
  · simp at h
  · rename_i x1 h1
    split at h
    · simp only [Option.some.injEq] at h
      subst h
      exact ⟨.inl rfl, loopX_std o hg hs c gmin _ _ _ _ hstd h1⟩
    · rename_i x2 h2
      simp only [Option.some.injEq] at h
      subst h
      exact ⟨.inr rfl, loopX_std o hg hs c 0 _ _ _ _ hstd h2⟩
    · simp at h
  · simp at h

/-- C119: what this means for a non-linear circuit: the reported point is one Newton step from a point where the
currents into every node add up to at most `iea` and the voltages of every branch equation to at most `vea`, the
step being within the tolerances on voltages and currents. -/
theorem C119_tolerance_partial {m : Nat} (o : OOpts K) (hg : o.meth.gmin = false) (hs : o.meth.src = false)
    (c : Circ K m) (hn : c.nonlinear = true) (gmin : K) (x0 : Option (Fin m → K)) (s : OpSol K m)
    (h : opAnalysis o c gmin x0 = some (some s)) :
    ∃ x' dx F : Fin m → K, F = (c.mna + gminMat c.nn s.gmin) *ᵥ x' + (c.N + c.Ntran) + c.Tx x' ∧
      (c.mna + gminMat c.nn s.gmin + c.J x') *ᵥ dx = -F ∧ (∃ td : K, s.x = x' + td • dx) ∧
      ∀ i : Fin m, if i.val < c.nn then |dx i| ≤ o.tol.vea + o.tol.ver * |s.x i + dx i| ∧ |F i| ≤ o.tol.iea
        else |dx i| ≤ o.tol.iea + o.tol.ier * |s.x i + dx i| ∧ |F i| ≤ o.tol.vea := by
  obtain ⟨-, y, r, h1, h2, h3⟩ := C119_reported_partial o hg hs c gmin x0 s h
  have hn' : (problem c s.gmin .full).nonlinear = true := hn
  obtain ⟨-, -, -, x', e1, e2, e3⟩ := Newton.C78_report_exact _ _ _ _ _ _ h1
  rw [hn', if_pos rfl] at e1 e2
  refine ⟨x', r.dx, r.res, e1, e2, ⟨_, h3 ▸ e3⟩, fun i => ?_⟩
  have := Newton.C78_converged_within_tolerance _ _ _ hn' _ _ _ h1 h2 i
  rw [h3] at this
  exact this

/-- the circuit with the conductance `a` at every node and the sources multiplied by `f` -/
def scaled {m : Nat} (c : Circ K m) (a f : K) : Newton.Problem K m :=
  ⟨c.mna + gminMat c.nn a, f • c.N + c.Ntran, c.nonlinear, c.J, c.Tx, c.locked, c.nn + 1⟩

omit [IsStrictOrderedRing K] in
theorem loopX_valid {m : Nat} (o : OOpts K) (c : Circ K m) (g : K) (k : Nat) (s : State) (x z : Fin m → K)
    (hs : ∀ i, s.sys = some (.src i) → i < 10) (h : loopX o c g k s x = .solved z) :
    ∃ y, (∀ i, y = .src i → i < 10) ∧ FromNewton o (problem c g y) z := by
  induction k generalizing s x with
  | zero => cases h
  | succ k ih =>
    unfold loopX at h
    rcases hch : choose o.meth s with e | y
    · rw [hch] at h; cases h
    · rw [hch] at h
      simp only at h
      have hy : ∀ i, y = .src i → i < 10 := by
        rintro i rfl
        unfold choose at hch
        split at hch
        · cases hch
        · split at hch
          · split at hch <;> cases hch
          · split at hch
            · split at hch
              · rename_i hlt
                cases hch
                exact hlt
              · cases hch
            · split at hch
              · rename_i y' hsys
                cases hch
                exact hs i hsys
              · cases hch
      rcases ha : attempt o (problem c g y) x with _ | ⟨x', conv⟩
      · rw [ha] at h; cases h
      · rw [ha] at h
        simp only at h
        rcases haf : after o.meth { s with sys := some y } conv with s' | _ | _
        · rw [haf] at h
          refine ih s' x' ?_ h
          have hsys : s'.sys = some y := by
            unfold after at haf
            split at haf
            · split at haf
              · cases haf
                unfold setNext
                simp only
                split_ifs <;> rfl
              · cases haf
            · split at haf
              · cases haf; rfl
              · split at haf
                · cases haf; rfl
                · cases haf
          intro i hi
          rw [hsys] at hi
          exact hy i (Option.some.inj hi)
        · rw [haf] at h
          cases h
          have := (after_success haf).1
          subst this
          exact ⟨y, hy, attempt_conv ha⟩
        · rw [haf] at h; cases h

omit [IsStrictOrderedRing K] in
/-- C119: whatever the options are, a vector reported by `dc_solve` is a converged Newton solution of the circuit
with the given Gmin and all sources at the same fraction, or of the circuit with another conductance at every
node. -/
theorem C119_systems {m : Nat} (o : OOpts K) (c : Circ K m) (g : K) (x0 : Option (Fin m → K)) (fuel : Nat)
    (z : Fin m → K) (h : dcSolve o c g x0 fuel = .solved z) :
    ∃ a f : K, FromNewton o (scaled c a f) z ∧
      ((a = g ∧ f ∈ ([1/1000, 5/1000, 1/100, 3/100, 1/10, 3/10, 5/10, 7/10, 8/10, 9/10, 1] : List K)) ∨
        (f = 1 ∧ ∃ k : Nat, 1 ≤ k ∧ a = 1 / 10 ^ k)) := by
  obtain ⟨y, hy, hz⟩ := loopX_valid o c g fuel _ _ z (by
    intro i hi
    unfold setNext init at hi
    simp only at hi
    split_ifs at hi <;> simp at hi) h
  cases y with
  | full =>
    refine ⟨g, 1, ?_, .inl ⟨rfl, by simp⟩⟩
    unfold scaled
    rw [one_smul]
    exact hz
  | gmin i =>
    refine ⟨1 / 10 ^ (i + 1), 1, ?_, .inr ⟨rfl, i + 1, by omega, rfl⟩⟩
    unfold scaled
    rw [one_smul, add_comm c.mna]
    exact hz
  | src i =>
    refine ⟨g, srcFactor i, ?_, .inl ⟨rfl, ?_⟩⟩
    · exact hz
    · have := hy i rfl
      interval_cases i <;> simp [srcFactor]

/-! ### Linear circuits -/

/-- a linear circuit: nothing to lock and nothing to linearise -/
structure Linear {m : Nat} (c : Circ K m) : Prop where
  nl : c.nonlinear = false
  locked : c.locked = []

/-- options with undamped Newton and at least one iteration -/
structure Plain (o : OOpts K) : Prop where
  damp : o.newton.dampFirst = false
  maxit : 0 < o.maxit

theorem attempt_linear {m : Nat} {o : OOpts K} (ho : Plain o) {c : Circ K m} (hc : Linear c) (g : K) (y : Sys)
    (x : Fin m → K) :
    ((problem c g y).mna.det = 0 → attempt o (problem c g y) x = some (x, false)) ∧
    ((problem c g y).mna.det ≠ 0 → ∃ z, attempt o (problem c g y) x = some (z, true) ∧
      (problem c g y).mna *ᵥ z + (problem c g y).T = 0) := by
  refine ⟨fun hd => ?_, fun hd => ?_⟩
  · obtain ⟨k, hk⟩ : ∃ k, o.maxit = k + 1 := ⟨o.maxit - 1, by have := ho.maxit; omega⟩
    have hj : Newton.jac (problem c g y) x = (problem c g y).mna := by
      have : (problem c g y).nonlinear = false := hc.nl
      simp [Newton.jac, this]
    have : Newton.mdnSolver o.newton o.tol (problem c g y) o.maxit (some x) = .error .singular := by
      unfold Newton.mdnSolver
      rw [hk]
      unfold Newton.loop
      simp only [Option.getD_some, Newton.solve, hj, hd, if_true]
    unfold attempt
    rw [this]
  · obtain ⟨r, h1, h2, -, h4⟩ := Newton.C15_linear_exact ([] : List (Circuit.Elem K)) rfl o.newton ho.damp o.tol
      (problem c g y) hc.nl hc.locked hd o.maxit ho.maxit (some x)
    refine ⟨r.x, ?_, h4⟩
    unfold attempt
    rw [h1]
    simp only [h2]

theorem dcSolve_regular {m : Nat} {o : OOpts K} (ho : Plain o) (hm : o.meth.std = true) {c : Circ K m}
    (hc : Linear c) (g : K) (hd : (c.mna + gminMat c.nn g).det ≠ 0) (x0 : Option (Fin m → K)) (k : Nat) :
    ∃ z, dcSolve o c g x0 (k + 1) = .solved z ∧ (c.mna + gminMat c.nn g) *ᵥ z + (c.N + c.Ntran) = 0 := by
  obtain ⟨z, h1, h2⟩ := (attempt_linear ho hc g .full (x0.getD 0)).2 hd
  refine ⟨z, ?_, h2⟩
  have hs : (setNext o.meth init).std.enabled = true ∧ (setNext o.meth init).gm.enabled = false ∧
      (setNext o.meth init).src.enabled = false := by simp [setNext, init, hm]
  unfold dcSolve loopX
  have : choose o.meth (setNext o.meth init) = .ok .full := by unfold choose; rw [if_pos hs.1]
  rw [this]
  simp only [h1]
  simp only [after, hs, Bool.not_true, Bool.false_eq_true, if_false, Bool.false_and]

/-- C119: a linear circuit that has one solution, with and without Gmin: that solution is reported, from any
starting point. -/
theorem C119_linear {m : Nat} {o : OOpts K} (ho : Plain o) (hm : o.meth.std = true) {c : Circ K m}
    (hc : Linear c) (gmin : K) (h0 : c.mna.det ≠ 0) (h1 : (c.mna + gminMat c.nn gmin).det ≠ 0)
    (x0 : Option (Fin m → K)) :
    ∃ x, opAnalysis o c gmin x0 = some (some ⟨x, 0⟩) ∧ c.mna *ᵥ x + (c.N + c.Ntran) = 0 := by
  have hz : gminMat (m := m) c.nn (0 : K) = 0 := by
    unfold gminMat
    ext i j
    by_cases e : i = j
    · subst e; simp
    · simp [Matrix.diagonal_apply_ne _ e]
  obtain ⟨x1, e1, -⟩ := dcSolve_regular ho hm hc gmin h1 x0 63
  obtain ⟨x2, e2, h2⟩ := dcSolve_regular ho hm hc 0 (by rwa [hz, add_zero]) (some x1) 63
  refine ⟨x2, ?_, by rwa [hz, add_zero] at h2⟩
  unfold opAnalysis
  rw [e1]
  simp only [e2]

/-- C119: the guess and the starting point do not matter for such a circuit. -/
theorem C119_linear_start {m : Nat} {o : OOpts K} (ho : Plain o) (hm : o.meth.std = true) {c : Circ K m}
    (hc : Linear c) (gmin : K) (h0 : c.mna.det ≠ 0) (h1 : (c.mna + gminMat c.nn gmin).det ≠ 0)
    (a b : Option (Fin m → K)) : opAnalysis o c gmin a = opAnalysis o c gmin b := by
  obtain ⟨x, e1, e2⟩ := C119_linear ho hm hc gmin h0 h1 a
  obtain ⟨y, e3, e4⟩ := C119_linear ho hm hc gmin h0 h1 b
  rw [e1, e3, Newton.C15_unique c.mna (c.N + c.Ntran) x y h0 e2 e4]

/-! ### Gmin stepping, linear circuit with a singular matrix, default options -/

/-- the state during Gmin stepping -/
def gState (i : Nat) (y : Option Sys) : State := ⟨⟨false, true, 0⟩, ⟨true, false, i⟩, {}, y⟩

/-- the state during source stepping -/
def sState (j : Nat) (y : Option Sys) : State := ⟨⟨false, true, 0⟩, ⟨false, true, j⟩, ⟨true, false, 0⟩, y⟩

/-- default methods -/
structure AllMeth (o : OOpts K) : Prop where
  std : o.meth.std = true
  gmin : o.meth.gmin = true
  src : o.meth.src = true
  ngmin : 10 ≤ o.meth.ngmin

theorem loopX_src {m : Nat} {o : OOpts K} (ho : Plain o) (ha : AllMeth o) {c : Circ K m} (hc : Linear c) (g : K)
    (hd : (c.mna + gminMat c.nn g).det = 0) (k j : Nat) (y : Option Sys) (x : Fin m → K) :
    loopX o c g (k + 2) (sState j y) x = .failed := by
  have h1 := (attempt_linear ho hc g (.src 0) x).1 hd
  have h2 : choose o.meth (sState j y) = .ok (.src 0) := by simp [choose, sState]
  have h3 : after o.meth { sState j y with sys := some (.src 0) } false =
      .next ⟨⟨false, true, 0⟩, ⟨false, true, j⟩, ⟨false, true, 0⟩, some (.src 0)⟩ := by
    simp [after, moreAvailable, setNext, sState, ha.src]
  have h4 : choose o.meth ⟨⟨false, true, 0⟩, ⟨false, true, j⟩, ⟨false, true, 0⟩, some (.src 0)⟩ = .ok (.src 0) := by
    simp [choose]
  have h5 : after o.meth ⟨⟨false, true, 0⟩, ⟨false, true, j⟩, ⟨false, true, 0⟩, some (.src 0)⟩ false = .failure := by
    simp [after, moreAvailable]
  rw [loopX, h2]
  simp only [h1, h3]
  rw [loopX, h4]
  simp only [h1, h5]

/-- the matrix of the `i`-th step of Gmin stepping -/
def stepMat {m : Nat} (c : Circ K m) (i : Nat) : Matrix (Fin m) (Fin m) K := gminMat c.nn (1 / 10 ^ (i + 1)) + c.mna

theorem loopX_gmin {m : Nat} {o : OOpts K} (ho : Plain o) (ha : AllMeth o) {c : Circ K m} (hc : Linear c) (g : K)
    (hd : (c.mna + gminMat c.nn g).det = 0) (n i k : Nat) (hn : i + n = 9) (y : Option Sys) (x : Fin m → K) :
    ((∀ j, i ≤ j → j ≤ 9 → (stepMat c j).det ≠ 0) →
      ∃ z, loopX o c g (n + 3 + k) (gState i y) x = .solved z ∧ stepMat c 9 *ᵥ z + (c.N + c.Ntran) = 0) ∧
    ((∃ j, i ≤ j ∧ j ≤ 9 ∧ (stepMat c j).det = 0) → loopX o c g (n + 3 + k) (gState i y) x = .failed) := by
  induction n generalizing i x y with
  | zero =>
    obtain rfl : i = 9 := by omega
    have h2 : choose o.meth (gState 9 y) = .ok (.gmin 9) := by
      have : 9 < o.meth.ngmin := by have := ha.ngmin; omega
      simp [choose, gState, this]
    refine ⟨fun h => ?_, fun ⟨j, j1, j2, h⟩ => ?_⟩
    · obtain ⟨z, h1, hz⟩ := (attempt_linear ho hc g (.gmin 9) x).2 (h 9 le_rfl le_rfl)
      refine ⟨z, ?_, hz⟩
      rw [show 0 + 3 + k = (k + 2) + 1 by omega, loopX, h2]
      simp only [h1]
      simp [after, gState]
    · obtain rfl : j = 9 := by omega
      have h1 := (attempt_linear ho hc g (.gmin 9) x).1 h
      have h3 : after o.meth { gState 9 y with sys := some (.gmin 9) } false = .next (sState 9 (some (.gmin 9))) := by
        simp [after, moreAvailable, setNext, gState, sState, ha.src, ha.gmin]
      rw [show 0 + 3 + k = (k + 2) + 1 by omega, loopX, h2]
      simp only [h1, h3]
      exact loopX_src ho ha hc g hd k 9 _ _
  | succ n ih =>
    have h2 : choose o.meth (gState i y) = .ok (.gmin i) := by
      have : i < o.meth.ngmin := by have := ha.ngmin; omega
      simp [choose, gState, this]
    rw [show n + 1 + 3 + k = (n + 3 + k) + 1 by omega]
    by_cases hdi : (stepMat c i).det = 0
    · refine ⟨fun h => absurd hdi (h i le_rfl (by omega)), fun _ => ?_⟩
      have h1 := (attempt_linear ho hc g (.gmin i) x).1 hdi
      have h3 : after o.meth { gState i y with sys := some (.gmin i) } false = .next (sState i (some (.gmin i))) := by
        simp [after, moreAvailable, setNext, gState, sState, ha.src, ha.gmin]
      rw [loopX, h2]
      simp only [h1, h3]
      rw [show n + 3 + k = (n + 1 + k) + 2 by omega]
      exact loopX_src ho ha hc g hd _ i _ _
    · obtain ⟨z, h1, -⟩ := (attempt_linear ho hc g (.gmin i) x).2 hdi
      have h3 : after o.meth { gState i y with sys := some (.gmin i) } true = .next (gState (i + 1) (some (.gmin i))) := by
        have : i ≠ 9 := by omega
        simp [after, gState, this]
      have := ih (i + 1) (by omega) (some (.gmin i)) z
      have e : loopX o c g (n + 3 + k + 1) (gState i y) x = loopX o c g (n + 3 + k) (gState (i + 1) (some (.gmin i))) z := by
        rw [loopX, h2]
        simp only [h1, h3]
      rw [e]
      refine ⟨fun h => this.1 (fun j j1 j2 => h j (by omega) j2), fun ⟨j, j1, j2, h⟩ => this.2 ⟨j, ?_, j2, h⟩⟩
      rcases Nat.eq_or_lt_of_le j1 with rfl | hlt
      · exact absurd h hdi
      · exact hlt

theorem dcSolve_singular {m : Nat} {o : OOpts K} (ho : Plain o) (ha : AllMeth o) {c : Circ K m} (hc : Linear c) (g : K)
    (hd : (c.mna + gminMat c.nn g).det = 0) (x0 : Option (Fin m → K)) :
    ((∀ j, j ≤ 9 → (stepMat c j).det ≠ 0) →
      ∃ z, dcSolve o c g x0 = .solved z ∧ stepMat c 9 *ᵥ z + (c.N + c.Ntran) = 0) ∧
    ((∃ j, j ≤ 9 ∧ (stepMat c j).det = 0) → dcSolve o c g x0 = .failed) := by
  have h1 := (attempt_linear ho hc g .full (x0.getD 0)).1 hd
  have h0 : setNext o.meth init = ⟨⟨true, false, 0⟩, {}, {}, none⟩ := by simp [setNext, init, ha.std]
  have h2 : choose o.meth ⟨⟨true, false, 0⟩, {}, {}, none⟩ = .ok .full := by simp [choose]
  have h3 : after o.meth ⟨⟨true, false, 0⟩, {}, {}, some .full⟩ false = .next (gState 0 (some .full)) := by
    simp [after, moreAvailable, setNext, gState, ha.std, ha.gmin]
  have e : dcSolve o c g x0 = loopX o c g (9 + 3 + 51) (gState 0 (some .full)) (x0.getD 0) := by
    unfold dcSolve
    rw [h0, loopX, h2]
    simp only [h1, h3]
  rw [e]
  have := loopX_gmin ho ha hc g hd 9 0 51 rfl (some .full) (x0.getD 0)
  exact ⟨fun h => this.1 fun j _ hj => h j hj, fun ⟨j, j2, h⟩ => this.2 ⟨j, Nat.zero_le _, j2, h⟩⟩

/-- C119: when `None` is returned for a linear circuit, with the default methods: the matrix with Gmin is singular,
and so is one of those of Gmin stepping. -/
theorem C119_none_iff {m : Nat} {o : OOpts K} (ho : Plain o) (ha : AllMeth o) {c : Circ K m} (hc : Linear c)
    (gmin : K) (x0 : Option (Fin m → K)) :
    opAnalysis o c gmin x0 = some none ↔
      (c.mna + gminMat c.nn gmin).det = 0 ∧ ∃ j, j ≤ 9 ∧ (stepMat c j).det = 0 := by
  have key : ∀ g x, (∃ z, dcSolve o c g x = .solved z) ∨ dcSolve o c g x = .failed := by
    intro g x
    by_cases hd : (c.mna + gminMat c.nn g).det = 0
    · by_cases hs : ∀ j, j ≤ 9 → (stepMat c j).det ≠ 0
      · obtain ⟨z, h, -⟩ := (dcSolve_singular ho ha hc g hd x).1 hs
        exact .inl ⟨z, h⟩
      · refine .inr ((dcSolve_singular ho ha hc g hd x).2 ?_)
        by_contra hne
        exact hs fun j hj h => hne ⟨j, hj, h⟩
    · obtain ⟨z, h, -⟩ := dcSolve_regular ho ha.std hc g hd x 63
      exact .inl ⟨z, h⟩
  refine ⟨fun h => ?_, fun ⟨h1, h2⟩ => ?_⟩
  · rcases key gmin x0 with ⟨z, hz⟩ | hf
    · exfalso
      unfold opAnalysis at h
      rw [hz] at h
      rcases key 0 (some z) with ⟨w, hw⟩ | hw <;> simp [hw] at h
    · constructor
      · by_contra hd
        obtain ⟨z, hz, -⟩ := dcSolve_regular ho ha.std hc gmin hd x0 63
        rw [hz] at hf; cases hf
      · by_contra hne
        have hd : (c.mna + gminMat c.nn gmin).det = 0 := by
          by_contra hd
          obtain ⟨z, hz, -⟩ := dcSolve_regular ho ha.std hc gmin hd x0 63
          rw [hz] at hf; cases hf
        obtain ⟨z, hz, -⟩ := (dcSolve_singular ho ha hc gmin hd x0).1 fun j hj h => hne ⟨j, hj, h⟩
        rw [hz] at hf; cases hf
  · unfold opAnalysis
    rw [(dcSolve_singular ho ha hc gmin h1 x0).2 h2]

/-- C119: a linear circuit whose matrix is singular without Gmin but not with it: the point reported as calculated
without Gmin is the solution with 10⁻¹⁰ S at every node. -/
theorem C119_singular {m : Nat} {o : OOpts K} (ho : Plain o) (ha : AllMeth o) {c : Circ K m} (hc : Linear c)
    (gmin : K) (h0 : c.mna.det = 0) (h1 : (c.mna + gminMat c.nn gmin).det ≠ 0)
    (hs : ∀ j, j ≤ 9 → (stepMat c j).det ≠ 0) (x0 : Option (Fin m → K)) :
    ∃ x, opAnalysis o c gmin x0 = some (some ⟨x, 0⟩) ∧ (c.mna + gminMat c.nn (1 / 10 ^ 10)) *ᵥ x + (c.N + c.Ntran) = 0 := by
  have hz : gminMat (m := m) c.nn (0 : K) = 0 := by
    unfold gminMat
    ext i j
    by_cases e : i = j
    · subst e; simp
    · simp [Matrix.diagonal_apply_ne _ e]
  obtain ⟨x1, e1, -⟩ := dcSolve_regular ho ha.std hc gmin h1 x0 63
  obtain ⟨x2, e2, h2⟩ := (dcSolve_singular ho ha hc 0 (by rwa [hz, add_zero]) (some x1)).1 hs
  refine ⟨x2, ?_, by rw [add_comm c.mna]; exact h2⟩
  unfold opAnalysis
  rw [e1]
  simp only [e2]

/-- a source of 1 A feeding a node with nothing but a capacitor -/
def floating : Circ ℚ 1 := ⟨0, ![1], 0, 1, false, fun _ => 0, fun _ => 0, []⟩

/-- the default options -/
def dflt : OOpts ℚ := ⟨⟨true, true, true, 27⟩, ⟨false, true, 1/10⟩, ⟨1/1000000, 1/1000, 1/1000000000, 1/1000⟩, 10000⟩

theorem floating_mat (g : ℚ) : gminMat (m := 1) 1 g = !![g] := by
  ext i j
  fin_cases i; fin_cases j
  simp [gminMat]

/-- C119: for that circuit there is no operating point without Gmin, but one is reported, with ten gigavolts. -/
theorem C119_gmin_refuted :
    (∀ x, floating.mna *ᵥ x + floating.N ≠ 0) ∧
    opAnalysis dflt floating (1 / 10 ^ 12) none = some (some ⟨![-10 ^ 10], 0⟩) := by
  constructor
  · intro x h
    have := congrFun h 0
    simp [floating] at this
  · have hl : Linear floating := ⟨rfl, rfl⟩
    obtain ⟨x, e1, e2⟩ := C119_singular (o := dflt) ⟨rfl, by decide⟩ ⟨rfl, rfl, rfl, by decide⟩ hl (1 / 10 ^ 12)
      (by simp [floating]) (by
        show (0 + gminMat 1 _ : Matrix (Fin 1) (Fin 1) ℚ).det ≠ 0
        rw [floating_mat]; norm_num)
      (fun j _ => by
        show (gminMat 1 _ + 0 : Matrix (Fin 1) (Fin 1) ℚ).det ≠ 0
        rw [floating_mat]; simp) none
    rw [e1]
    have h : x = ![-10 ^ 10] := by
      have e3 : ((0 + gminMat 1 (1 / 10 ^ 10) : Matrix (Fin 1) (Fin 1) ℚ) *ᵥ x + (![1] + 0)) = 0 := e2
      rw [floating_mat] at e3
      have := congrFun e3 0
      simp only [zero_add, Pi.add_apply, Pi.zero_apply] at this
      simp [vecHead] at this
      ext i
      fin_cases i
      show x 0 = -10 ^ 10
      norm_num at this ⊢
      linarith
    rw [h]

/-- a resistor of 2 ohm and 1 A: the point reported is the solution -/
example : ∃ x, opAnalysis dflt ⟨!![1/2], ![1], 0, 1, false, fun _ => 0, fun _ => 0, []⟩ (1 / 10 ^ 12) none =
    some (some ⟨x, 0⟩) ∧ (!![1/2] : Matrix (Fin 1) (Fin 1) ℚ) *ᵥ x + (![1] + 0) = 0 :=
  C119_linear ⟨rfl, by decide⟩ rfl ⟨rfl, rfl⟩ _ (by simp) (by
    show (!![1/2] + gminMat 1 _ : Matrix (Fin 1) (Fin 1) ℚ).det ≠ 0
    rw [floating_mat]; norm_num) none

/-- two sources in parallel: nothing is reported -/
example : opAnalysis dflt (m := 3) ⟨!![0, 1, 1; 1, 0, 0; 1, 0, 0], ![0, -1, -2], 0, 1, false, fun _ => 0, fun _ => 0, []⟩
    (1 / 10 ^ 12) none = some none := by
  have hm : ∀ g : ℚ, gminMat (m := 3) 1 g = !![g, 0, 0; 0, 0, 0; 0, 0, 0] := by
    intro g; ext i j
    fin_cases i <;> fin_cases j <;> simp [gminMat]
  rw [C119_none_iff ⟨rfl, by decide⟩ ⟨rfl, rfl, rfl, by decide⟩ ⟨rfl, rfl⟩]
  refine ⟨?_, 0, by omega, ?_⟩
  · simp only [hm]; simp [Matrix.det_fin_three]
  · unfold stepMat; simp only [hm]; simp [Matrix.det_fin_three]

/-! ### C118: where the solution starts -/

/-- C118: a starting point given by the caller is used; otherwise the guess is used iff both the argument and the
option say so. -/
theorem C118_start {α : Type} (use guess : Bool) (x0 dcg : Option α) :
    startPoint use guess x0 dcg = if x0.isSome then x0 else if use && guess then dcg else none := by
  cases use <;> cases guess <;> cases x0 <;> rfl

end Verif.Op
