import Verif.Model.Cli
import Verif.Props.Op
import Mathlib.Tactic.NormNum
import Mathlib.Data.Rat.Floor

/-!
C118: command-line options have the effect described in their help.
-/

namespace Verif.Cli

variable {K : Type} [Field K] [LinearOrder K] [FloorRing K]

/-- what an option that takes a number leaves in `options`: the number given, or what was there -/
def NumSet (float : String → Option K) (given : Option String) (old new : K) : Prop :=
  (∀ s, given = some s → float s = some new) ∧ (given = none → new = old)

/-- the same for an integer -/
def IntSet (float : String → Option K) (given : Option String) (old new : Int) : Prop :=
  (∀ s, given = some s → ∃ x, float s = some x ∧ new = toInt x) ∧ (given = none → new = old)

omit [Field K] [LinearOrder K] [FloorRing K] in
theorem setF_spec {float : String → Option K} {s : Option String} {old new : K} (h : setF float s old = some new) :
    NumSet float s old new := by
  cases s with
  | none => simp only [setF, Option.some.injEq] at h; exact ⟨by rintro _ ⟨⟩, fun _ => h.symm⟩
  | some t => exact ⟨by rintro _ ⟨⟩; exact h, by rintro ⟨⟩⟩

theorem setI_spec {float : String → Option K} {s : Option String} {old new : Int} (h : setI float s old = some new) :
    IntSet float s old new := by
  cases s with
  | none => simp only [setI, Option.some.injEq] at h; exact ⟨by rintro _ ⟨⟩, fun _ => h.symm⟩
  | some t =>
    obtain ⟨x, h1, h2⟩ := Option.map_eq_some_iff.mp h
    exact ⟨by rintro _ ⟨⟩; exact ⟨x, h1, h2.symm⟩, by rintro ⟨⟩⟩

/-- C118: every option on the command line sets its own value and no other; options that are not given leave the
default; the method is stored in upper case. -/
theorem C118_numbers (float : String → Option K) (c : Cli) (o o' : Options K) (h : applyCli float c o = some o') :
    NumSet float c.vea o.vea o'.vea ∧ NumSet float c.ver o.ver o'.ver ∧ NumSet float c.iea o.iea o'.iea ∧
    NumSet float c.ier o.ier o'.ier ∧ NumSet float c.hmin o.hmin o'.hmin ∧ NumSet float c.gmin o.gmin o'.gmin ∧
    NumSet float c.cmin o.cmin o'.cmin ∧ IntSet float c.dcMax o.dcMax o'.dcMax ∧
    IntSet float c.tranMax o.tranMax o'.tranMax ∧ IntSet float c.timeMax o.timeMax o'.timeMax ∧
    IntSet float c.shootMax o.shootMax o'.shootMax ∧ o'.noStep = c.noStep ∧
    o'.method = (c.method.map String.toUpper).getD o.method := by
  unfold applyCli at h
  obtain ⟨vea, h1, h⟩ := Option.bind_eq_some_iff.mp h
  obtain ⟨ver, h2, h⟩ := Option.bind_eq_some_iff.mp h
  obtain ⟨iea, h3, h⟩ := Option.bind_eq_some_iff.mp h
  obtain ⟨ier, h4, h⟩ := Option.bind_eq_some_iff.mp h
  obtain ⟨hmin, h5, h⟩ := Option.bind_eq_some_iff.mp h
  obtain ⟨dcMax, h6, h⟩ := Option.bind_eq_some_iff.mp h
  obtain ⟨tranMax, h7, h⟩ := Option.bind_eq_some_iff.mp h
  obtain ⟨timeMax, h8, h⟩ := Option.bind_eq_some_iff.mp h
  obtain ⟨shootMax, h9, h⟩ := Option.bind_eq_some_iff.mp h
  obtain ⟨gmin, h10, h⟩ := Option.bind_eq_some_iff.mp h
  obtain ⟨cmin, h11, h⟩ := Option.bind_eq_some_iff.mp h
  simp only [Option.some.injEq] at h
  subst h
  cases hm : c.method <;> simp only [setMethod, hm] at h1 h2 h3 h4 h5 h6 h7 h8 h9 h10 h11 ⊢ <;>
    exact ⟨setF_spec h1, setF_spec h2, setF_spec h3, setF_spec h4, setF_spec h5, setF_spec h10, setF_spec h11,
      setI_spec h6, setI_spec h7, setI_spec h8, setI_spec h9, trivial, rfl⟩

/-- C118: values that are numbers are accepted, all of them. -/
theorem C118_accepted (float : String → Option K) (c : Cli) (o : Options K)
    (hf : ∀ s, (c.vea = some s ∨ c.ver = some s ∨ c.iea = some s ∨ c.ier = some s ∨ c.hmin = some s ∨
      c.dcMax = some s ∨ c.tranMax = some s ∨ c.timeMax = some s ∨ c.shootMax = some s ∨ c.gmin = some s ∨
      c.cmin = some s) → (float s).isSome = true) :
    (applyCli float c o).isSome = true := by
  have F : ∀ (s : Option String) (old : K), (∀ t, s = some t → (float t).isSome = true) →
      ∃ x, setF float s old = some x := by
    intro s old h
    cases s with
    | none => exact ⟨old, rfl⟩
    | some t => exact Option.isSome_iff_exists.mp (h t rfl)
  have I : ∀ (s : Option String) (old : Int), (∀ t, s = some t → (float t).isSome = true) →
      ∃ x, setI float s old = some x := by
    intro s old h
    cases s with
    | none => exact ⟨old, rfl⟩
    | some t =>
      obtain ⟨x, hx⟩ := Option.isSome_iff_exists.mp (h t rfl)
      exact ⟨toInt x, by simp [setI, hx]⟩
  unfold applyCli
  generalize setMethod c o = o2
  obtain ⟨_, e1⟩ := F c.vea o2.vea fun t ht => hf t (by simp [ht])
  obtain ⟨_, e2⟩ := F c.ver o2.ver fun t ht => hf t (by simp [ht])
  obtain ⟨_, e3⟩ := F c.iea o2.iea fun t ht => hf t (by simp [ht])
  obtain ⟨_, e4⟩ := F c.ier o2.ier fun t ht => hf t (by simp [ht])
  obtain ⟨_, e5⟩ := F c.hmin o2.hmin fun t ht => hf t (by simp [ht])
  obtain ⟨_, e6⟩ := I c.dcMax o2.dcMax fun t ht => hf t (by simp [ht])
  obtain ⟨_, e7⟩ := I c.tranMax o2.tranMax fun t ht => hf t (by simp [ht])
  obtain ⟨_, e8⟩ := I c.timeMax o2.timeMax fun t ht => hf t (by simp [ht])
  obtain ⟨_, e9⟩ := I c.shootMax o2.shootMax fun t ht => hf t (by simp [ht])
  obtain ⟨_, e10⟩ := F c.gmin o2.gmin fun t ht => hf t (by simp [ht])
  obtain ⟨_, e11⟩ := F c.cmin o2.cmin fun t ht => hf t (by simp [ht])
  simp only [e1, e2, e3, e4, e5, e6, e7, e8, e9, e10, e11, Option.bind_some, Option.isSome_some]

/-- C118: without any option on the command line, everything but the type of `dc_use_guess` is as in options.py. -/
theorem C118_defaults (float : String → Option K) (o : Options K) (hm : o.method = "TRAP") (hn : o.noStep = false) :
    applyCli float {} o = some { o with dcUseGuess := .str "guess" } := by
  have e : "trap".toUpper = "TRAP" := by decide +kernel
  obtain ⟨_, _, _, _, _, _, _, _, _, _, _, m, n, _⟩ := o
  simp only at hm hn
  subst hm hn
  simp [applyCli, setMethod, setF, setI, e]

/-- C118: `--dc-guess none`, like any other word, leaves the guess switched on: an operating point without starting
point starts from the guess. -/
theorem C118_dc_guess_refuted (float : String → Option K) (c : Cli) (o o' : Options K) (hc : c.dcGuess = "none")
    (h : applyCli float c o = some o') {α : Type} (dcg : Option α) :
    Op.startPoint o'.dcUseGuess.truthy true none dcg = dcg := by
  have : o'.dcUseGuess = .str c.dcGuess := by
    unfold applyCli at h
    iterate 11 obtain ⟨_, -, h⟩ := Option.bind_eq_some_iff.mp h
    simp only [Option.some.injEq] at h
    subst h; rfl
  rw [this, hc]
  rfl

/-- `float` for the examples -/
def fl : String → Option ℚ
  | "1e-5" => some (1/100000)
  | "12.9" => some (129/10)
  | _ => none

/-- default options -/
def dflt : Options ℚ := ⟨1/1000000, 1/1000, 1/1000000000, 1/1000, 1/10^20, 10000, 20, 0, 10000, 1/10^12, 1/10^18,
  "TRAP", false, .bool true⟩

example : (applyCli fl { vea := some "1e-5", tranMax := some "12.9", dcGuess := "none" } dflt).map
    (fun o => (o.vea, o.iea, o.tranMax, o.dcMax, o.method, o.dcUseGuess.truthy)) =
    some (1/100000, 1/1000000000, 12, 10000, "TRAP", true) := by decide +kernel

example : applyCli fl { vea := some "x" } dflt = none := rfl

/-- C118: an iteration limit is cut to an integer. -/
theorem C118_toInt [IsStrictOrderedRing K] (n : Int) : toInt (n : K) = n := by
  unfold toInt
  split <;> simp

/-- C118: what is cut off is the fraction: the integer is between zero and the number, less than one from it. -/
theorem C118_toInt_cut [IsStrictOrderedRing K] (x : K) :
    (0 ≤ x → ((toInt x : Int) : K) ≤ x ∧ x < toInt x + 1) ∧ (x < 0 → x ≤ toInt x ∧ ((toInt x : Int) : K) < x + 1) := by
  unfold toInt
  refine ⟨fun h => ?_, fun h => ?_⟩
  · rw [if_pos h]; exact ⟨Int.floor_le x, Int.lt_floor_add_one x⟩
  · rw [if_neg (not_le.mpr h)]; exact ⟨Int.le_ceil x, Int.ceil_lt_add_one x⟩

example : toInt (-(5/2) : ℚ) = -2 := by decide +kernel

end Verif.Cli
