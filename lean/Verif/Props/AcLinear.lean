import Verif.Props.Ac
import Mathlib.LinearAlgebra.Matrix.Nondegenerate

/-!
Property C161: AC analysis is linear in the sources and does not depend on where the solver starts.
-/

namespace Verif.Ac
open Matrix Verif.Homotopy Verif.Axes
open Verif.Circuit (Err)

variable {m : Nat}

/-- the same circuit with other sources -/
def AcIn.with (c : AcIn m) (N : Fin m → ℂ) : AcIn m := { c with Nac := N }

theorem Y_with (c : AcIn m) (N : Fin m → ℂ) (w g : ℝ) : Y (c.with N) w g = Y c w g := rfl

theorem solves_comb {c : AcIn m} {w : ℝ} {N1 N2 z1 z2 z3 : Fin m → ℂ} {a b : ℂ} (h1 : Solves (c.with N1) w z1)
    (h2 : Solves (c.with N2) w z2) (h3 : Solves (c.with (a • N1 + b • N2)) w z3) : z3 = a • z1 + b • z2 := by
  have key : ∀ A : Matrix (Fin m) (Fin m) ℂ, A.det ≠ 0 → A *ᵥ z1 + N1 = 0 → A *ᵥ z2 + N2 = 0 →
      A *ᵥ z3 + (a • N1 + b • N2) = 0 → z3 = a • z1 + b • z2 := by
    intro A hA e1 e2 e3
    have : A *ᵥ (z3 - (a • z1 + b • z2)) = 0 := by
      rw [mulVec_sub, mulVec_add, mulVec_smul, mulVec_smul]
      rw [eq_neg_of_add_eq_zero_left e1, eq_neg_of_add_eq_zero_left e2, eq_neg_of_add_eq_zero_left e3]
      simp only [smul_neg]
      abel
    exact sub_eq_zero.1 (Matrix.eq_zero_of_mulVec_eq_zero hA this)
  unfold Solves at h1 h2 h3
  simp only [AcIn.with] at h1 h2 h3
  rcases h1 with ⟨d, e1⟩ | ⟨d, d', e1⟩
  · rcases h2 with ⟨-, e2⟩ | ⟨d2, -⟩
    · rcases h3 with ⟨-, e3⟩ | ⟨d3, -⟩
      · exact key _ d e1 e2 e3
      · exact absurd d3 d
    · exact absurd d2 d
  · rcases h2 with ⟨d2, -⟩ | ⟨-, -, e2⟩
    · exact absurd d d2
    · rcases h3 with ⟨d3, -⟩ | ⟨-, -, e3⟩
      · exact absurd d d3
      · exact key _ d' e1 e2 e3

/-- C161: three AC analyses of a circuit with the same axis, the sources of the third being a combination (with complex
factors) of those of the others, and any starting points: they all raise the same exception, or all return `None`, or at
each frequency the third result is that combination of the other results. -/
theorem C161_superposition {o : AOpts} (ho : Default o) (c : AcIn m) (N1 N2 : Fin m → ℂ) (a b : ℂ) (t : SweepType)
    (start stop : ℝ) (points : Nat) (x1 x2 x3 : Fin m → ℂ) :
    let r1 := acAnalysis o (c.with N1) t start stop points x1
    let r2 := acAnalysis o (c.with N2) t start stop points x2
    let r3 := acAnalysis o (c.with (a • N1 + b • N2)) t start stop points x3
    (∃ e, r1 = .error e ∧ r2 = .error e ∧ r3 = .error e) ∨ (r1 = .ok none ∧ r2 = .ok none ∧ r3 = .ok none) ∨
    ∃ p1 p2 p3 : List (ℝ × (Fin m → ℂ)), r1 = .ok (some p1) ∧ r2 = .ok (some p2) ∧ r3 = .ok (some p3) ∧
      p2.length = p1.length ∧ p3.length = p1.length ∧
      ∀ (i : Nat) (q1 q2 q3 : ℝ × (Fin m → ℂ)), p1[i]? = some q1 → p2[i]? = some q2 → p3[i]? = some q3 →
        q2.1 = q1.1 ∧ q3.1 = q1.1 ∧ ∀ j, q3.2 j = a * q1.2 j + b * q2.2 j := by
  intro r1 r2 r3
  cases hw : omegas t start stop points (points + 2) with
  | error e => exact .inl ⟨e, by simp [r1, acAnalysis, hw], by simp [r2, acAnalysis, hw], by simp [r3, acAnalysis, hw]⟩
  | ok ws =>
    right
    have st : ∀ N w, Stuck (c.with N) w ↔ Stuck c w := fun N w => Iff.rfl
    rcases sweep_spec ho (c.with N1) ws x1 [] with ⟨k1, e1⟩ | ⟨k1, p1, e1, f1⟩
    · left
      have := fun N x => (sweep_spec ho (c.with N) ws x []).resolve_right (fun h => by
        obtain ⟨w, hw, hk⟩ := k1
        exact h.1 w hw hk)
      exact ⟨by simp [r1, acAnalysis, hw, e1], by simp [r2, acAnalysis, hw, (this N2 x2).2],
        by simp [r3, acAnalysis, hw, (this _ x3).2]⟩
    · right
      have := fun N x => (sweep_spec ho (c.with N) ws x []).resolve_left (fun h => by
        obtain ⟨w, hw, hk⟩ := h.1
        exact k1 w hw hk)
      obtain ⟨-, p2, e2, f2⟩ := this N2 x2
      obtain ⟨-, p3, e3, f3⟩ := this (a • N1 + b • N2) x3
      refine ⟨p1, p2, p3, by simp [r1, acAnalysis, hw, e1], by simp [r2, acAnalysis, hw, e2],
        by simp [r3, acAnalysis, hw, e3], by rw [← f1.length_eq, ← f2.length_eq], by rw [← f1.length_eq, ← f3.length_eq], ?_⟩
      intro i q1 q2 q3 h1 h2 h3
      obtain ⟨l1, g1⟩ := List.getElem?_eq_some_iff.1 h1
      obtain ⟨l2, g2⟩ := List.getElem?_eq_some_iff.1 h2
      obtain ⟨l3, g3⟩ := List.getElem?_eq_some_iff.1 h3
      have lw : i < ws.length := by rw [f1.length_eq]; exact l1
      have s1 := f1.get lw l1
      have s2 := f2.get lw l2
      have s3 := f3.get lw l3
      simp only [List.get_eq_getElem] at s1 s2 s3
      rw [g1] at s1
      rw [g2] at s2
      rw [g3] at s3
      refine ⟨by rw [s1.1, s2.1], by rw [s1.1, s3.1], fun j => ?_⟩
      rw [solves_comb s1.2 s2.2 s3.2]
      simp

/-- C161: without AC sources nothing is found at any frequency. -/
theorem C161_quiet {o : AOpts} (ho : Default o) (c : AcIn m) (t : SweepType) (start stop : ℝ) (points : Nat)
    (x0 : Fin m → ℂ) (p : List (ℝ × (Fin m → ℂ))) (h : acAnalysis o (c.with 0) t start stop points x0 = .ok (some p)) :
    ∀ q ∈ p, q.2 = 0 := by
  intro q hq
  rcases C161_superposition ho c 0 0 0 0 t start stop points x0 x0 x0 with ⟨e, h1, -⟩ | ⟨h1, -⟩ | ⟨p1, p2, p3, h1, h2, h3, hl, -, hp⟩
  · rw [h] at h1; cases h1
  · rw [h] at h1; cases h1
  · simp only [smul_zero, add_zero] at h3
    rw [h] at h1 h2 h3
    cases h1; cases h2; cases h3
    obtain ⟨i, hi⟩ := List.getElem?_of_mem hq
    funext j
    have := (hp i q q q hi hi hi).2.2 j
    simpa using this

/-- the RC circuit of C120, driven twice as hard -/
example (x y : Fin 1 → ℂ) : ∃ p q, acAnalysis ⟨⟨true, true, true, 27⟩, false⟩ (rc.with rc.Nac) .lin 1 3 3 x = .ok (some p) ∧
    acAnalysis ⟨⟨true, true, true, 27⟩, false⟩ (rc.with ((2 : ℂ) • rc.Nac + (0 : ℂ) • rc.Nac)) .lin 1 3 3 y = .ok (some q) ∧
    q.length = p.length ∧ ∀ (i : Nat) a b, p[i]? = some a → q[i]? = some b → b.1 = a.1 ∧ b.2 0 = 2 * a.2 0 := by
  have ho : Default ⟨⟨true, true, true, 27⟩, false⟩ := ⟨rfl, rfl, rfl, by decide, rfl⟩
  rcases C120_linear ho rc 1 3 (by norm_num) (by norm_num) 3 (by norm_num) x with ⟨-, i, -, hk⟩ | ⟨pts, e, -, hm, -⟩
  · exact absurd hk (rc_regular _)
  · rcases C161_superposition ho rc rc.Nac rc.Nac 2 0 .lin 1 3 3 x x y with ⟨e', h1, -⟩ | ⟨h1, -⟩ | ⟨p1, p2, p3, h1, h2, h3, l2, l3, hp⟩
    · exact absurd (e.symm.trans h1) (by simp)
    · exact absurd (e.symm.trans h1) (by simp)
    · refine ⟨p1, p3, h1, h3, l3, fun i a b ha hb => ?_⟩
      rw [h1] at h2
      cases h2
      obtain ⟨-, q2, q3⟩ := hp i a a b ha ha hb
      exact ⟨q2, by rw [q3]; ring⟩

end Verif.Ac
