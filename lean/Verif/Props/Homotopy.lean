import Verif.Model.Homotopy
import Mathlib.Tactic.Common
import Mathlib.Tactic.NormNum

/-!
Properties C16, C17: the DC solve and its homotopies, for every behaviour of the Newton
solver.
-/

namespace Verif.Homotopy

/-- calls of the standard method -/
def callsS (o : Opts) : List Sys := if o.std then [.full] else []
/-- the first `a` Gmin steps -/
def callsG (a : Nat) : List Sys := (List.range a).map .gmin
/-- the first `b` source steps -/
def callsR (b : Nat) : List Sys := (List.range b).map .src

inductive Phase where
  | std
  | gm (a : Nat)
  | src (a b : Nat)
  | stale (a b : Nat)

def callsOf (o : Opts) : Phase → List Sys
  | .std => []
  | .gm a => callsS o ++ callsG a
  | .src a b => callsS o ++ callsG a ++ callsR b
  | .stale a b => callsS o ++ callsG a ++ callsR b

def stateOf (o : Opts) (y : Option Sys) : Phase → State
  | .std => ⟨{ enabled := true }, {}, {}, y⟩
  | .gm a => ⟨{ failed := o.std }, { enabled := true, index := a }, {}, y⟩
  | .src a b => ⟨{ failed := o.std }, { failed := o.gmin, index := a - 1 },
      { enabled := true, index := b }, y⟩
  | .stale a b => ⟨{ failed := o.std }, { failed := o.gmin, index := a - 1 },
      { failed := o.src, index := b - 1 }, y⟩

def GminDone (o : Opts) (a : Nat) : Prop :=
  (o.gmin = true → 1 ≤ a ∧ a ≤ 10) ∧ (o.gmin = false → a = 0)
def SrcDone (o : Opts) (b : Nat) : Prop :=
  (o.src = true → 1 ≤ b ∧ b ≤ 10) ∧ (o.src = false → b = 0)

def Valid (o : Opts) : Phase → Prop
  | .std => o.std = true
  | .gm a => o.gmin = true ∧ a ≤ 9
  | .src a b => o.src = true ∧ b ≤ 9 ∧ GminDone o a
  | .stale a b => GminDone o a ∧ SrcDone o b

/-- the call that ended a method failed -/
def FailS (o : Opts) (oracle : Nat → Bool) : Prop := o.std = true → oracle 0 = false
def FailG (o : Opts) (oracle : Nat → Bool) (a : Nat) : Prop :=
  o.gmin = true → oracle ((callsS o).length + a - 1) = false
def FailR (o : Opts) (oracle : Nat → Bool) (a b : Nat) : Prop :=
  o.src = true → oracle ((callsS o).length + a + b - 1) = false

def Hist (o : Opts) (oracle : Nat → Bool) : Phase → Prop
  | .std => True
  | .gm _ => FailS o oracle
  | .src a _ => FailS o oracle ∧ FailG o oracle a
  | .stale a b => FailS o oracle ∧ FailG o oracle a ∧ FailR o oracle a b

def rem : Phase → Nat
  | .std => 22
  | .gm a => 21 - a
  | .src _ b => 11 - b
  | .stale .. => 1

/-- What can be said about the end of `dc_solve` and its calls (in order). -/
def Good (o : Opts) (oracle : Nat → Bool) (r : End × List Sys) : Prop :=
  ∃ a b z, r.2 = callsS o ++ callsG a ++ callsR b ++ z ∧ a ≤ 10 ∧ b ≤ 10 ∧
    (o.gmin = false → a = 0) ∧ (o.src = false → b = 0) ∧
    (z = [] ∨ ∃ y, z = [y] ∧ (callsS o ++ callsG a ++ callsR b).getLast? = some y ∧
      oracle (r.2.length - 2) = false) ∧
    ((r.1 = .success ∧ oracle (r.2.length - 1) = true ∧
        (z = [] → r.2.getLast? = some .full ∨ r.2.getLast? = some (.gmin 9) ∨
          r.2.getLast? = some (.src 9))) ∨
     (r.1 = .failure ∧ oracle (r.2.length - 1) = false ∧ z ≠ [] ∧ FailS o oracle ∧
        (o.gmin = true → 1 ≤ a) ∧ FailG o oracle a ∧ (o.src = true → 1 ≤ b) ∧
        FailR o oracle a b))

theorem callsG_succ (a : Nat) : callsG (a + 1) = callsG a ++ [.gmin a] := by
  simp [callsG, List.range_succ]
theorem callsR_succ (a : Nat) : callsR (a + 1) = callsR a ++ [.src a] := by
  simp [callsR, List.range_succ]
theorem callsG_len (a : Nat) : (callsG a).length = a := by simp [callsG]
theorem callsR_len (a : Nat) : (callsR a).length = a := by simp [callsR]

theorem loop_good (o : Opts) (hng : 10 ≤ o.ngmin) (oracle : Nat → Bool) (fuel : Nat) (p : Phase)
    (y : Option Sys) (calls : List Sys) (hf : rem p ≤ fuel) (hv : Valid o p)
    (hh : Hist o oracle p) (hc : calls.reverse = callsOf o p)
    (hy : ∀ a b, p = .stale a b → y ≠ none ∧ y = (callsOf o p).getLast?) :
    Good o oracle ((loop o oracle fuel (stateOf o y p) calls).1,
      (loop o oracle fuel (stateOf o y p) calls).2.reverse) := by
  have hlen : calls.length = (callsOf o p).length := by rw [← hc, List.length_reverse]
  induction fuel generalizing p y calls with
  | zero => cases p <;> simp [rem] at hf <;> obtain ⟨h1, h2⟩ := hv <;> omega
  | succ fuel ih =>
    cases p with
    | std =>
      have hs : o.std = true := hv
      have hc0 : calls = [] := by simpa [callsOf] using hc
      subst hc0
      have hS : callsS o = [.full] := by simp [callsS, hs]
      cases ho : oracle 0 with
      | true =>
        have e : loop o oracle (fuel + 1) (stateOf o y .std) [] = (.success, [.full]) := by
          simp [loop, choose, stateOf, after, ho]
        rw [e]
        refine ⟨0, 0, [], ?_, by omega, by omega, by simp, by simp, Or.inl rfl, Or.inl ?_⟩
        · simp [hS, callsG, callsR]
        · exact ⟨rfl, by simpa using ho, by simp⟩
      | false =>
        -- the standard method failed; what comes next depends on the options
        have hFS : FailS o oracle := fun _ => ho
        have step : ∀ s', setNext o ⟨{ enabled := true }, {}, {}, some .full⟩ = s' →
            loop o oracle (fuel + 1) (stateOf o y .std) [] = loop o oracle fuel s' [.full] := by
          intro s' hs'
          simp only [loop, choose, stateOf, after, moreAvailable]
          rw [← hs']
          simp [ho, hs]
        by_cases hg : o.gmin = true
        · rw [step (stateOf o (some .full) (.gm 0)) (by simp [setNext, stateOf, hs, hg])]
          apply ih
          · simp [rem] at hf ⊢; omega
          · exact ⟨hg, by omega⟩
          · exact hFS
          · simp [callsOf, hS, callsG]
          · intro a b e; cases e
          · simp [callsOf, hS, callsG]
        · have hg' : o.gmin = false := by simpa using hg
          by_cases hr : o.src = true
          · rw [step (stateOf o (some .full) (.src 0 0)) (by simp [setNext, stateOf, hs, hg', hr])]
            apply ih
            · simp [rem] at hf ⊢; omega
            · exact ⟨hr, by omega, by simp [hg'], by simp⟩
            · exact ⟨hFS, by intro h; simp [hg'] at h⟩
            · simp [callsOf, hS, callsG, callsR]
            · intro a b e; cases e
            · simp [callsOf, hS, callsG, callsR]
          · have hr' : o.src = false := by simpa using hr
            rw [step (stateOf o (some .full) (.stale 0 0))
              (by simp [setNext, stateOf, hs, hg', hr'])]
            apply ih
            · simp [rem] at hf ⊢; omega
            · exact ⟨⟨by simp [hg'], by simp⟩, by simp [hr'], by simp⟩
            · exact ⟨hFS, by intro h; simp [hg'] at h, by intro h; simp [hr'] at h⟩
            · simp [callsOf, hS, callsG, callsR]
            · intro a b e; cases e; simp [callsOf, hS, callsG, callsR]
            · simp [callsOf, hS, callsG, callsR]
    | gm a =>
      obtain ⟨hg, ha⟩ := hv
      have hFS : FailS o oracle := hh
      have hl : calls.length = (callsS o).length + a := by
        rw [hlen]; simp [callsOf, callsG_len]
      have hch : choose o (stateOf o y (.gm a)) = .ok (.gmin a) := by
        have : a < o.ngmin := by omega
        simp [choose, stateOf, this]
      have hc' : (Sys.gmin a :: calls).reverse = callsS o ++ callsG (a + 1) := by
        rw [List.reverse_cons, hc, callsG_succ]; simp [callsOf]
      cases ho : oracle calls.length with
      | true =>
        by_cases h9 : a = 9
        · subst h9
          have e : loop o oracle (fuel + 1) (stateOf o y (.gm 9)) calls =
              (.success, .gmin 9 :: calls) := by
            simp only [loop, hch, after, ho]
            simp [stateOf]
          rw [e]
          refine ⟨10, 0, [], ?_, by omega, by omega, by simp [hg], by simp, Or.inl rfl, Or.inl ?_⟩
          · rw [hc']; simp [callsR]
          · refine ⟨rfl, by simpa using ho, fun _ => Or.inr (Or.inl ?_)⟩
            show (Sys.gmin 9 :: calls).reverse.getLast? = _
            rw [hc', callsG_succ]; simp
        · have e : loop o oracle (fuel + 1) (stateOf o y (.gm a)) calls =
              loop o oracle fuel (stateOf o (some (.gmin a)) (.gm (a + 1))) (.gmin a :: calls) := by
            simp only [loop, hch, after, ho]
            simp [stateOf, h9]
          rw [e]
          apply ih
          · simp only [rem] at hf ⊢; omega
          · exact ⟨hg, by omega⟩
          · exact hFS
          · rw [hc']; rfl
          · intro a b e; cases e
          · rw [List.length_cons, hl]; simp [callsOf, callsG_len]; omega
      | false =>
        have hFG : FailG o oracle (a + 1) := by
          intro _
          rw [hl] at ho
          simpa using ho
        have step : ∀ s', setNext o { stateOf o y (.gm a) with sys := some (.gmin a) } = s' →
            loop o oracle (fuel + 1) (stateOf o y (.gm a)) calls =
              loop o oracle fuel s' (.gmin a :: calls) := by
          intro s' hs'
          simp only [loop, hch, after, moreAvailable]
          rw [← hs']
          simp [ho, hg, stateOf]
        by_cases hr : o.src = true
        · rw [step (stateOf o (some (.gmin a)) (.src (a + 1) 0)) (by
            simp only [setNext, stateOf]
            cases hs : o.std <;> simp [hg, hr])]
          apply ih
          · simp only [rem] at hf ⊢; omega
          · exact ⟨hr, by omega, fun _ => by omega, by simp [hg]⟩
          · exact ⟨hFS, hFG⟩
          · rw [hc']; simp [callsOf, callsR]
          · intro a b e; cases e
          · rw [List.length_cons, hl]; simp [callsOf, callsG_len, callsR]; omega
        · have hr' : o.src = false := by simpa using hr
          rw [step (stateOf o (some (.gmin a)) (.stale (a + 1) 0)) (by
            simp only [setNext, stateOf]
            cases hs : o.std <;> simp [hg, hr'])]
          apply ih
          · simp only [rem] at hf ⊢; omega
          · exact ⟨⟨fun _ => by omega, by simp [hg]⟩, by simp [hr'], by simp⟩
          · exact ⟨hFS, hFG, by intro h; simp [hr'] at h⟩
          · rw [hc']; simp [callsOf, callsR]
          · intro a' b' e; cases e; simp [callsOf, callsR, callsG_succ]
          · rw [List.length_cons, hl]; simp [callsOf, callsG_len, callsR]; omega
    | src a b =>
      obtain ⟨hr, hb, hga⟩ := hv
      obtain ⟨hFS, hFG⟩ := hh
      have hl : calls.length = (callsS o).length + a + b := by
        rw [hlen]; simp [callsOf, callsG_len, callsR_len]; omega
      have hch : choose o (stateOf o y (.src a b)) = .ok (.src b) := by
        have : b < 10 := by omega
        simp [choose, stateOf, this]
      have hc' : (Sys.src b :: calls).reverse = callsS o ++ callsG a ++ callsR (b + 1) := by
        rw [List.reverse_cons, hc, callsR_succ]; simp [callsOf]
      have ha10 : a ≤ 10 := by
        cases hg : o.gmin
        · have := hga.2 hg; omega
        · exact (hga.1 hg).2
      cases ho : oracle calls.length with
      | true =>
        by_cases h9 : b = 9
        · subst h9
          have e : loop o oracle (fuel + 1) (stateOf o y (.src a 9)) calls =
              (.success, .src 9 :: calls) := by
            simp only [loop, hch, after, ho]
            simp [stateOf]
          rw [e]
          refine ⟨a, 10, [], ?_, ha10, by omega, hga.2, by simp [hr], Or.inl rfl, Or.inl ?_⟩
          · rw [hc']; simp
          · refine ⟨rfl, by simpa using ho, fun _ => Or.inr (Or.inr ?_)⟩
            show (Sys.src 9 :: calls).reverse.getLast? = _
            rw [hc', callsR_succ]; simp
        · have e : loop o oracle (fuel + 1) (stateOf o y (.src a b)) calls =
              loop o oracle fuel (stateOf o (some (.src b)) (.src a (b + 1))) (.src b :: calls) := by
            simp only [loop, hch, after, ho]
            simp [stateOf, h9]
          rw [e]
          apply ih
          · simp only [rem] at hf ⊢; omega
          · exact ⟨hr, by omega, hga⟩
          · exact ⟨hFS, hFG⟩
          · rw [hc']; rfl
          · intro a b e; cases e
          · rw [List.length_cons, hl]; simp [callsOf, callsG_len, callsR_len]; omega
      | false =>
        have hFR : FailR o oracle a (b + 1) := by
          intro _
          rw [hl] at ho
          simpa using ho
        have step : loop o oracle (fuel + 1) (stateOf o y (.src a b)) calls =
              loop o oracle fuel (stateOf o (some (.src b)) (.stale a (b + 1))) (.src b :: calls) := by
          simp only [loop, hch, after, moreAvailable]
          simp only [ho, stateOf, hr]
          cases hs : o.std <;> cases hg : o.gmin <;> simp [setNext, hs, hg]
        rw [step]
        apply ih
        · simp only [rem] at hf ⊢; omega
        · exact ⟨hga, fun _ => by omega, by simp [hr]⟩
        · exact ⟨hFS, hFG, hFR⟩
        · rw [hc']; rfl
        · intro a' b' e; cases e; simp [callsOf, callsR_succ]
        · rw [List.length_cons, hl]; simp [callsOf, callsG_len, callsR_len]; omega
    | stale a b =>
      obtain ⟨hga, hrb⟩ := hv
      obtain ⟨hFS, hFG, hFR⟩ := hh
      obtain ⟨hy0, hy1⟩ := hy a b rfl
      obtain ⟨q, rfl⟩ := Option.ne_none_iff_exists'.1 hy0
      have hch : choose o (stateOf o (some q) (.stale a b)) = .ok q := by simp [choose, stateOf]
      have hl : calls.length = (callsS o).length + a + b := by
        rw [hlen]; simp [callsOf, callsG_len, callsR_len]; omega
      have hc' : (q :: calls).reverse = callsS o ++ callsG a ++ callsR b ++ [q] := by
        rw [List.reverse_cons, hc]; rfl
      have ha10 : a ≤ 10 := by
        cases hg : o.gmin
        · have := hga.2 hg; omega
        · exact (hga.1 hg).2
      have hb10 : b ≤ 10 := by
        cases hg : o.src
        · have := hrb.2 hg; omega
        · exact (hrb.1 hg).2
      -- the call before this one failed
      have hprev : oracle (calls.length - 1) = false := by
        cases hr : o.src with
        | true => have := hFR hr; rw [hl]; exact this
        | false =>
          have hb0 := hrb.2 hr
          subst hb0
          cases hg : o.gmin with
          | true => have := hFG hg; rw [hl]; simpa using this
          | false =>
            have ha0 := hga.2 hg
            subst ha0
            cases hs : o.std with
            | true =>
              have := hFS hs
              rw [hl]; simpa [callsS, hs] using this
            | false =>
              simp [callsOf, callsS, hs, callsG, callsR] at hy1
      cases ho : oracle calls.length with
      | true =>
        have e : loop o oracle (fuel + 1) (stateOf o (some q) (.stale a b)) calls =
            (.success, q :: calls) := by
          simp only [loop, hch, after, ho]
          simp [stateOf]
        rw [e]
        refine ⟨a, b, [q], hc', ha10, hb10, hga.2, hrb.2, Or.inr ⟨q, rfl, hy1.symm, ?_⟩,
          Or.inl ⟨rfl, ?_, by simp⟩⟩
        · simpa using hprev
        · simpa using ho
      | false =>
        have e : loop o oracle (fuel + 1) (stateOf o (some q) (.stale a b)) calls =
            (.failure, q :: calls) := by
          have hm : ∀ y', moreAvailable o { stateOf o (some q) (.stale a b) with sys := y' } =
              false := by
            intro y'
            simp only [moreAvailable, stateOf]
            cases o.std <;> cases o.gmin <;> cases o.src <;> rfl
          simp only [loop, hch, after, ho, hm]
          rfl
        rw [e]
        refine ⟨a, b, [q], hc', ha10, hb10, hga.2, hrb.2, Or.inr ⟨q, rfl, hy1.symm, ?_⟩,
          Or.inr ⟨rfl, ?_, by simp, hFS, fun h => (hga.1 h).1, hFG, fun h => (hrb.1 h).1, hFR⟩⟩
        · simpa using hprev
        · simpa using ho

theorem dcSolve_good (o : Opts) (hm : o.std = true ∨ o.gmin = true ∨ o.src = true)
    (hng : 10 ≤ o.ngmin) (oracle : Nat → Bool) (fuel : Nat) (hf : 22 ≤ fuel) :
    Good o oracle (dcSolve o oracle fuel) := by
  unfold dcSolve
  by_cases hs : o.std = true
  · have e : setNext o init = stateOf o none .std := by simp [setNext, init, stateOf, hs]
    rw [e]
    exact loop_good o hng oracle fuel .std none [] hf hs trivial rfl (by intro a b e; cases e)
  · have hs' : o.std = false := by simpa using hs
    have hS : callsS o = [] := by simp [callsS, hs']
    by_cases hg : o.gmin = true
    · have e : setNext o init = stateOf o none (.gm 0) := by
        simp [setNext, init, stateOf, hs', hg]
      rw [e]
      exact loop_good o hng oracle fuel (.gm 0) none [] (by simp [rem]; omega) ⟨hg, by omega⟩
        (by intro h; simp [hs'] at h) (by simp [callsOf, hS, callsG]) (by intro a b e; cases e)
    · have hg' : o.gmin = false := by simpa using hg
      have hr : o.src = true := by
        rcases hm with h | h | h
        · exact absurd h hs
        · exact absurd h hg
        · exact h
      have e : setNext o init = stateOf o none (.src 0 0) := by
        simp [setNext, init, stateOf, hs', hg', hr]
      rw [e]
      exact loop_good o hng oracle fuel (.src 0 0) none [] (by simp [rem]; omega)
        ⟨hr, by omega, by simp [hg'], by simp⟩
        ⟨by intro h; simp [hs'] at h, by intro h; simp [hg'] at h⟩
        (by simp [callsOf, hS, callsG, callsR]) (by intro a b e; cases e)

/-- C17 (what the code guarantees): with some method enabled, whatever the Newton solver
does, `dc_solve` ends, with success or failure, after at most 22 solves: first the standard
one, then Gmin steps `0..a-1`, then source steps `0..b-1` (each only if enabled), then
possibly one repetition of the last solve. Missing for C17: the bound is 22, not 21. -/
theorem C17_bounded_ordered_partial (o : Opts) (hm : o.std = true ∨ o.gmin = true ∨ o.src = true)
    (hng : 10 ≤ o.ngmin) (oracle : Nat → Bool) (fuel : Nat) (hf : 22 ≤ fuel) :
    ((dcSolve o oracle fuel).1 = .success ∨ (dcSolve o oracle fuel).1 = .failure) ∧
    (dcSolve o oracle fuel).2.length ≤ 22 ∧
    ∃ a b z, (dcSolve o oracle fuel).2 = (if o.std then [.full] else []) ++
        (List.range a).map .gmin ++ (List.range b).map .src ++ z ∧
      a ≤ 10 ∧ b ≤ 10 ∧ (o.gmin = false → a = 0) ∧ (o.src = false → b = 0) ∧ z.length ≤ 1 := by
  obtain ⟨a, b, z, h1, h2, h3, h4, h5, h6, h7⟩ := dcSolve_good o hm hng oracle fuel hf
  have hz : z.length ≤ 1 := by
    rcases h6 with rfl | ⟨y, rfl, -⟩ <;> simp
  refine ⟨?_, ?_, a, b, z, h1, h2, h3, h4, h5, hz⟩
  · rcases h7 with h | h
    · exact Or.inl h.1
    · exact Or.inr h.1
  · rw [h1]
    have : (callsS o).length ≤ 1 := by unfold callsS; split <;> simp
    simp only [List.length_append, callsG_len, callsR_len]
    omega

/-- C17: failure is reported only after every enabled method was tried and its last solve
failed, and so did the final one. -/
theorem C17_failure_only_if_all_failed (o : Opts)
    (hm : o.std = true ∨ o.gmin = true ∨ o.src = true) (hng : 10 ≤ o.ngmin)
    (oracle : Nat → Bool) (fuel : Nat) (hf : 22 ≤ fuel)
    (h : (dcSolve o oracle fuel).1 = .failure) :
    ∃ a b, (o.std = true → (dcSolve o oracle fuel).2[0]? = some .full ∧ oracle 0 = false) ∧
      (o.gmin = true → 1 ≤ a ∧
        (dcSolve o oracle fuel).2[(if o.std then 1 else 0) + a - 1]? = some (.gmin (a - 1)) ∧
        oracle ((if o.std then 1 else 0) + a - 1) = false) ∧
      (o.src = true → 1 ≤ b ∧
        (dcSolve o oracle fuel).2[(if o.std then 1 else 0) + a + b - 1]? = some (.src (b - 1)) ∧
        oracle ((if o.std then 1 else 0) + a + b - 1) = false) ∧
      oracle ((dcSolve o oracle fuel).2.length - 1) = false := by
  obtain ⟨a, b, z, h1, h2, h3, h4, h5, h6, h7⟩ := dcSolve_good o hm hng oracle fuel hf
  rcases h7 with h7 | ⟨-, q1, q2, q3, q4, q5, q6, q7⟩
  · rw [h] at h7; simp at h7
  · have hS : (callsS o).length = if o.std then 1 else 0 := by unfold callsS; split <;> rfl
    refine ⟨a, b, ?_, ?_, ?_, q1⟩
    · intro hs
      refine ⟨?_, q3 hs⟩
      rw [h1]; simp [callsS, hs]
    · intro hg
      have ha := q4 hg
      refine ⟨ha, ?_, ?_⟩
      · rw [h1, ← hS, List.append_assoc, List.append_assoc,
          List.getElem?_append_right (by omega),
          List.getElem?_append_left (by rw [callsG_len]; omega)]
        rw [show (callsS o).length + a - 1 - (callsS o).length = a - 1 by omega]
        rw [callsG, List.getElem?_map, List.getElem?_range (by omega)]; rfl
      · rw [← hS]; exact q5 hg
    · intro hr
      have hb := q6 hr
      refine ⟨hb, ?_, ?_⟩
      · rw [h1, ← hS, List.append_assoc, List.append_assoc,
          List.getElem?_append_right (by omega),
          List.getElem?_append_right (by rw [callsG_len]; omega),
          List.getElem?_append_left (by rw [callsR_len, callsG_len]; omega), callsG_len]
        rw [show (callsS o).length + a + b - 1 - (callsS o).length - a = b - 1 by omega]
        rw [callsR, List.getElem?_map, List.getElem?_range (by omega)]; rfl
      · rw [← hS]; exact q7 hr

/-- C17 is false in its bound: there are 22 solves when the last step of both homotopies
fails, because the method that fails is marked as failed only after the question whether
methods are left. -/
theorem C17_bound_refuted : ∃ oracle, (dcSolve ⟨true, true, true, 27⟩ oracle 100).2.length = 22 ∧
    (dcSolve ⟨true, true, true, 27⟩ oracle 100).1 = .failure :=
  ⟨fun n => n ≠ 0 ∧ n ≠ 10 ∧ n ≠ 20 ∧ n ≠ 21, by decide +kernel⟩

/-- C17: with every method disabled the solve raises (`mna_to_pass` is unbound) instead of
reporting failure; and with an `options.gmin` above about 4.5e-5 (fewer than ten factors)
Gmin stepping runs out of its list and raises. -/
theorem C17_exceptions_refuted :
    (∀ oracle, dcSolve ⟨false, false, false, 27⟩ oracle 1 = (.raised .unbound, [])) ∧
    (∃ oracle, (dcSolve ⟨true, true, true, 6⟩ oracle 100).1 = .raised .index) :=
  ⟨fun _ => rfl, fun n => n ≠ 0, by decide +kernel⟩

/-- C16 (standard method only): success means the last solve was for the circuit itself and
converged. Missing for C16: the homotopies, see the refutations. -/
theorem C16_standard_only_partial (o : Opts) (hs : o.std = true) (hg : o.gmin = false)
    (hr : o.src = false) (hng : 10 ≤ o.ngmin) (oracle : Nat → Bool) (fuel : Nat) (hf : 22 ≤ fuel)
    (h : (dcSolve o oracle fuel).1 = .success) :
    (dcSolve o oracle fuel).2.getLast? = some .full ∧
      oracle ((dcSolve o oracle fuel).2.length - 1) = true := by
  obtain ⟨a, b, z, h1, h2, h3, h4, h5, h6, h7⟩ :=
    dcSolve_good o (Or.inl hs) hng oracle fuel hf
  have ha := h4 hg
  have hb := h5 hr
  subst ha; subst hb
  rcases h7 with ⟨-, q1, -⟩ | ⟨q, -⟩
  · refine ⟨?_, q1⟩
    rw [h1]
    rcases h6 with rfl | ⟨y, rfl, hy, -⟩
    · simp [callsS, hs, callsG, callsR]
    · simp [callsS, hs, callsG, callsR] at hy
      simp [callsS, hs, callsG, callsR, hy]
  · rw [h] at q; cases q

/-- C16 (all methods): a success always ends with a converged solve; that solve was for the
circuit itself, for the tenth Gmin step or for the tenth source step, or it repeated a solve
that had just failed. -/
theorem C16_success_last_partial (o : Opts) (hm : o.std = true ∨ o.gmin = true ∨ o.src = true)
    (hng : 10 ≤ o.ngmin) (oracle : Nat → Bool) (fuel : Nat) (hf : 22 ≤ fuel)
    (h : (dcSolve o oracle fuel).1 = .success) :
    oracle ((dcSolve o oracle fuel).2.length - 1) = true ∧
      ((dcSolve o oracle fuel).2.getLast? = some .full ∨
       (dcSolve o oracle fuel).2.getLast? = some (.gmin 9) ∨
       (dcSolve o oracle fuel).2.getLast? = some (.src 9) ∨
       (2 ≤ (dcSolve o oracle fuel).2.length ∧
        (dcSolve o oracle fuel).2.getLast? = (dcSolve o oracle fuel).2.dropLast.getLast? ∧
        oracle ((dcSolve o oracle fuel).2.length - 2) = false)) := by
  obtain ⟨a, b, z, h1, h2, h3, h4, h5, h6, h7⟩ := dcSolve_good o hm hng oracle fuel hf
  rcases h7 with ⟨-, q1, q2⟩ | ⟨q, -⟩
  · refine ⟨q1, ?_⟩
    rcases h6 with rfl | ⟨y, rfl, hy, hf'⟩
    · rcases q2 rfl with h | h | h
      · exact Or.inl h
      · exact Or.inr (Or.inl h)
      · exact Or.inr (Or.inr (Or.inl h))
    · refine Or.inr (Or.inr (Or.inr ⟨?_, ?_, hf'⟩))
      · rw [h1]
        have : (callsS o ++ callsG a ++ callsR b) ≠ [] := by
          intro e; rw [e] at hy; simp at hy
        have := List.length_pos_of_ne_nil this
        simp only [List.length_append, List.length_singleton] at this ⊢
        omega
      · rw [h1, List.dropLast_concat, hy, List.getLast?_concat]
  · rw [h] at q; cases q

/-- C16 is false: (1) source stepping ends at step 9, which is 90% of the source values;
(2) when source stepping fails at its first step (0.1% of the sources) the same system is
solved again, and if it then converges this is reported as the operating point; (3) the same
with Gmin stepping, at a conductance of 0.1 S to ground on every node. -/
theorem C16_partial_strength_refuted :
    (∃ oracle, dcSolve ⟨true, false, true, 27⟩ oracle 100 =
      (.success, .full :: (List.range 10).map .src)) ∧
    (∃ oracle, dcSolve ⟨true, true, true, 27⟩ oracle 100 =
      (.success, [.full, .gmin 0, .src 0, .src 0])) ∧
    (∃ oracle, dcSolve ⟨true, true, false, 27⟩ oracle 100 =
      (.success, [.full, .gmin 0, .gmin 0])) := by
  refine ⟨⟨fun n => n ≠ 0, ?_⟩, ⟨fun n => n = 3, ?_⟩, ⟨fun n => n = 2, ?_⟩⟩ <;> decide +kernel

/-- The source factors, line 457: the last one is not the full strength. -/
def srcFactors : List ℚ :=
  [1/1000, 5/1000, 1/100, 3/100, 1/10, 3/10, 5/10, 7/10, 8/10, 9/10]

example : srcFactors[9]? = some (9/10) ∧ (1 : ℚ) ∉ srcFactors := by decide +kernel

/-- Example: all methods enabled, the default, succeeding at once. -/
example : dcSolve ⟨true, true, true, 27⟩ (fun _ => true) 100 = (.success, [.full]) := by
  decide +kernel

end Verif.Homotopy
