import Verif.Model.TranFront
import Mathlib.Data.Rat.Floor
import Mathlib.Tactic.Linarith
import Mathlib.Tactic.FinCases
import Mathlib.Tactic.Positivity

/-!
# C199: the formula of a transient analysis is the one asked for
-/

namespace Verif.TranFront
open Verif.Tran
open Verif.Circuit (Err)

variable {K : Type} [Field K] [LinearOrder K]

/-- the names of the documentation, with their formulas -/
def documented : List (String × Meth) :=
  [("IMPLICIT_EULER", .euler), ("TRAP", .trap), ("GEAR1", .gear 1), ("GEAR2", .gear 2), ("GEAR3", .gear 3), ("GEAR4", .gear 4),
    ("GEAR5", .gear 5), ("GEAR6", .gear 6)]

theorem choose_iff (found : String → Bool) (s : String) (mt : Meth) : choose found s = some mt ↔ (s, mt) ∈ documented := by
  constructor
  · intro h
    unfold choose customDf at h
    simp only [ite_self] at h
    split_ifs at h with h1 h2 h3 h4 h5 h6 h7 h8 <;> cases h <;> subst_vars <;> decide
  · intro h
    simp only [documented, List.mem_cons, Prod.mk.injEq, List.not_mem_nil, or_false] at h
    rcases h with ⟨rfl, rfl⟩ | ⟨rfl, rfl⟩ | ⟨rfl, rfl⟩ | ⟨rfl, rfl⟩ | ⟨rfl, rfl⟩ | ⟨rfl, rfl⟩ | ⟨rfl, rfl⟩ | ⟨rfl, rfl⟩ <;>
      simp [choose]

theorem choose_none (found : String → Bool) (s : String) : choose found s = none ↔ ∀ p ∈ documented, p.1 ≠ s := by
  rw [Option.eq_none_iff_forall_ne_some]
  constructor
  · rintro h ⟨n, mt⟩ hp rfl
    exact h mt ((choose_iff found n mt).2 hp)
  · intro h mt hm
    exact h _ ((choose_iff found s mt).1 hm) rfl

/-- the arguments are in order -/
def Valid (a : Args K) : Prop := a.tstart ≤ a.tstop ∧ 0 ≤ a.tstep ∧ ∀ p ∈ a.given, p.1 = p.2

theorem front_valid (found : String → Bool) (o : Opts) {a : Args K} (h : Valid a) :
    front found o a = match choose found (match a.method with | some m => m.toUpper | none => o.method) with
    | none => .exit 23
    | some mt => match bufferLen mt (!o.noControl && a.control) with
      | .error e => .raised e
      | .ok len => .go mt (!o.noControl && a.control) len
          (if (!o.noControl && a.control) then min ((a.tstop - a.tstart) / 9999) a.tstep else a.tstep) := by
  obtain ⟨h1, h2, h3⟩ := h
  unfold front
  simp only [not_lt.2 h1, not_lt.2 h2, if_false]
  rw [if_neg (by push Not; exact h3)]
  cases o.noControl <;> simp <;> rfl

/-- C199: an analysis with step control that names a documented method, in upper or lower case, uses that formula. -/
theorem C199_named (found : String → Bool) (o : Opts) {a : Args K} (h : Valid a) (ho : o.noControl = false) (hc : a.control = true)
    {m : String} (hm : a.method = some m) {mt : Meth} (hd : (m.toUpper, mt) ∈ documented) :
    ∃ len, front found o a = .go mt true len (min ((a.tstop - a.tstart) / 9999) a.tstep) ∧ bufferLen mt true = .ok len := by
  rw [front_valid found o h]
  simp only [hm, ho, hc, Bool.not_false, Bool.and_self, (choose_iff found _ mt).2 hd, if_true]
  simp only [bufferLen, if_true]
  exact ⟨_, rfl, rfl⟩

/-- C199: without a method, the default of the options is used. -/
theorem C199_default_partial (found : String → Bool) (o : Opts) {a : Args K} (h : Valid a) (ho : o.noControl = false)
    (hc : a.control = true) (hm : a.method = none) {mt : Meth} (hd : (o.method, mt) ∈ documented) :
    ∃ len, front found o a = .go mt true len (min ((a.tstop - a.tstart) / 9999) a.tstep) ∧ bufferLen mt true = .ok len := by
  rw [front_valid found o h]
  simp only [hm, ho, hc, Bool.not_false, Bool.and_self, (choose_iff found _ mt).2 hd, if_true]
  simp only [bufferLen, if_true]
  exact ⟨_, rfl, rfl⟩

/-- C199 refuted: the default of the options is taken as it is: in lower case it ends the program with status 23, although the
same name is accepted as an argument. -/
theorem C199_default_refuted (found : String → Bool) {a : Args K} (h : Valid a) (hm : a.method = none) :
    front found { method := "trap" } a = .exit 23 ∧
    (a.control = true → ∃ len s, front found {} { a with method := some "trap" } = .go .trap true len s) := by
  constructor
  · rw [front_valid found _ h]
    simp only [hm, (choose_none found "trap").2 (by decide)]
  · intro hc
    obtain ⟨len, e, -⟩ := C199_named found {} (a := { a with method := some "trap" }) h rfl hc rfl (mt := .trap) (by decide +kernel)
    exact ⟨len, _, e⟩

/-- C199: a name that is not documented ends the program with status 23: no analysis runs with another formula. -/
theorem C199_unknown (found : String → Bool) (o : Opts) {a : Args K} (h : Valid a) {m : String} (hm : a.method = some m)
    (hd : ∀ p ∈ documented, p.1 ≠ m.toUpper) : front found o a = .exit 23 := by
  rw [front_valid found o h]
  simp only [hm, (choose_none found _).2 hd]

/-- C199 refuted: modules with further formulas are never used, also when there are modules of every name. -/
theorem C199_custom_refuted (o : Opts) {a : Args K} (h : Valid a) {m : String} (hm : a.method = some m)
    (hd : ∀ p ∈ documented, p.1 ≠ m.toUpper) : front (fun _ => true) o a = .exit 23 :=
  C199_unknown _ o h hm hd

/-- C199 refuted: with fixed steps only the trapezoidal formula can be used: `None` is compared with a number for the others. -/
theorem C199_fixed_refuted (found : String → Bool) (o : Opts) {a : Args K} (h : Valid a) (hc : a.control = false) {m : String}
    (hm : a.method = some m) {mt : Meth} (hd : (m.toUpper, mt) ∈ documented) :
    front found o a = if mt = .trap then .go .trap false 1 a.tstep else .raised .type := by
  rw [front_valid found o h]
  simp only [hm, hc, Bool.and_false, (choose_iff found _ mt).2 hd]
  cases mt <;> simp [bufferLen, Meth.required, pyMax]

/-- C199: times in the wrong order and negative steps are refused with status 1. -/
theorem C199_times (found : String → Bool) (o : Opts) (a : Args K) (h : a.tstop < a.tstart ∨ a.tstep < 0) :
    front found o a = .exit 1 := by
  unfold front
  simp only [gt_iff_lt]
  split_ifs <;> simp_all

/-- C199 refuted: matrices of different sizes end the program as if it had succeeded, with status 0. -/
theorem C199_status_refuted (found : String → Bool) (o : Opts) (a : Args K) (h1 : a.tstart ≤ a.tstop) (h2 : 0 ≤ a.tstep) {r s : Nat}
    (hg : a.given = some (r, s)) (hne : r ≠ s) : front found o a = .exit 0 := by
  unfold front
  simp only [gt_iff_lt, not_lt.2 h1, not_lt.2 h2, if_false, hg, Option.mem_def, Option.some.injEq, exists_eq_left', hne, ne_eq,
    not_false_eq_true, if_true]

/-- C199: an analysis starts only with its arguments in order, and its first step is never longer than the one asked for, nor,
with step control, than a 9999th of the interval. -/
theorem C199_step [IsStrictOrderedRing K] (found : String → Bool) (o : Opts) (a : Args K) {mt : Meth} {c : Bool} {len : Nat} {s : K}
    (h : front found o a = .go mt c len s) :
    Valid a ∧ c = (!o.noControl && a.control) ∧ 0 ≤ s ∧ s ≤ a.tstep ∧ (c = true → 9999 * s ≤ a.tstop - a.tstart) ∧
    (c = false → s = a.tstep) ∧ (0 < s ↔ 0 < a.tstep ∧ (c = true → a.tstart < a.tstop)) := by
  have hv : Valid a := by
    unfold front at h
    simp only [gt_iff_lt] at h
    by_cases h1 : a.tstop < a.tstart
    · rw [if_pos h1] at h; cases h
    by_cases h2 : a.tstep < 0
    · rw [if_neg h1, if_pos h2] at h; cases h
    by_cases h3 : ∃ p ∈ a.given, p.1 ≠ p.2
    · rw [if_neg h1, if_neg h2, if_pos h3] at h; cases h
    push Not at h3
    exact ⟨not_lt.1 h1, not_lt.1 h2, h3⟩
  rw [front_valid found o hv] at h
  obtain ⟨h1, h2, -⟩ := id hv
  generalize choose found _ = ch at h
  rcases ch with _ | mt'
  · cases h
  · simp only at h
    generalize hc' : (!o.noControl && a.control) = c' at h ⊢
    generalize bufferLen mt' c' = bl at h
    rcases bl with e | len'
    · cases h
    · simp only [Front.go.injEq] at h
      obtain ⟨-, rfl, -, rfl⟩ := h
      have h9 : (0 : K) < 9999 := by norm_num
      refine ⟨hv, rfl, ?_, ?_, ?_, ?_, ?_⟩
      · split_ifs
        · exact le_min (div_nonneg (sub_nonneg.2 h1) h9.le) h2
        · exact h2
      · split_ifs
        · exact min_le_right _ _
        · exact le_rfl
      · rintro rfl
        rw [if_pos rfl, mul_comm, ← le_div_iff₀ h9]
        exact min_le_left _ _
      · rintro rfl; rfl
      · cases c'
        · simp
        · simp only [if_true, lt_min_iff, forall_const]
          rw [div_pos_iff_of_pos_right h9, sub_pos, and_comm]

/-! ### Examples -/

/-- one second in steps of at most 10 ms, with a name in mixed letters, the default, a wrong name and fixed steps -/
example : front (fun _ => true) {} ⟨0, 1 / 100, 1, some "Gear4", true, none⟩ = .go (.gear 4) true 5 (1 / 9999 : ℚ) ∧
    front (fun _ => true) {} ⟨0, 1 / 100, 1, none, true, none⟩ = .go .trap true 3 (1 / 9999 : ℚ) ∧
    front (fun _ => true) {} ⟨0, (1 / 100 : ℚ), 1, some "gear7", true, none⟩ = .exit 23 ∧
    front (fun _ => true) {} ⟨0, (1 / 100 : ℚ), 1, some "gear2", false, none⟩ = .raised .type ∧
    front (fun _ => true) {} ⟨0, (1 / 100 : ℚ), 1, some "trap", false, some (2, 2)⟩ = .go .trap false 1 (1 / 100) := by
  decide +kernel

/-- the hypotheses of the theorems are met -/
example : Valid (⟨0, 1 / 100, 1, some "trap", false, some (2, 2)⟩ : Args ℚ) ∧ ("Gear4".toUpper, Meth.gear 4) ∈ documented ∧
    ∀ p ∈ documented, p.1 ≠ "gear7".toUpper := by
  refine ⟨⟨by norm_num, by norm_num, by simp⟩, by decide +kernel, by decide +kernel⟩

end Verif.TranFront
