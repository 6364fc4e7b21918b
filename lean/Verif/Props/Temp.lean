import Verif.Model.Temp
import Mathlib.Data.Rat.Floor
import Mathlib.Tactic.NormNum
import Mathlib.Data.List.Induction

/-!
# C201: the temperature of a simulation is the one of its devices
-/

namespace Verif.Temp

variable {K : Type} [Field K]

/-- the temperature set last, in Celsius -/
def lastSet (h : List (Act K)) : Option K := (h.filterMap fun | .simulate c => some c | _ => none).getLast?

theorem run_append (h1 h2 : List (Act K)) : run (h1 ++ h2) = h2.foldl step (run h1) := List.foldl_append ..

omit [Field K] in
theorem lastSet_snoc (h : List (Act K)) (a : Act K) :
    lastSet (h ++ [a]) = match a with | .simulate c => some c | _ => lastSet h := by
  unfold lastSet
  cases a <;> simp [List.filterMap_append]

/-- C201: the temperature of the simulation is the last one set with `set_temperature`, in Kelvin, and 300 K before. -/
theorem C201_simulation (h : List (Act K)) :
    (run h).T = match lastSet h with | some c => c + 27315 / 100 | none => 300 := by
  induction h using List.reverseRecOn with
  | nil => rfl
  | append_singleton h a ih =>
    rw [run_append, lastSet_snoc]
    cases a with
    | simulate c => rfl
    | diode T => cases T <;> exact ih
    | model => exact ih
    | adjust i T => exact ih
    | analysis => exact ih

/-- C201: results note the temperature of the simulation at that time. -/
theorem C201_noted (h : List (Act K)) : (run (h ++ [.analysis])).noted = (run h).noted ++ [(run h).T] := by
  rw [run_append]; rfl

/-- the device with the given number is left alone -/
def Alone (i : Nat) : Act K → Prop
  | .adjust j _ => j ≠ i
  | _ => True

theorem keep (i : Nat) (d : Dev K) (h : List (Act K)) : ∀ w : World K, w.devs[i]? = some d → (∀ a ∈ h, Alone i a) →
    (h.foldl step w).devs[i]? = some d := by
  induction h with
  | nil => intro w hw _; exact hw
  | cons a r ih =>
    intro w hw ha
    rw [List.foldl_cons]
    refine ih _ ?_ fun b hb => ha b (List.mem_cons_of_mem _ hb)
    have hlt : i < w.devs.length := (List.getElem?_eq_some_iff.1 hw).1
    cases a with
    | simulate c => exact hw
    | diode T => cases T <;> (simp only [step]; rw [List.getElem?_append_left hlt]; exact hw)
    | model => simp only [step]; rw [List.getElem?_append_left hlt]; exact hw
    | adjust j T =>
      have : j ≠ i := ha _ (List.mem_cons_self ..)
      simp only [step]
      rw [List.getElem?_modify, hw]
      simp [this]
    | analysis => exact hw

/-- C201: a diode made with a temperature of its own works at that one until its own temperature is changed, whatever the
temperature of the simulation. -/
theorem C201_own (h1 h2 : List (Act K)) (T : K) (ha : ∀ a ∈ h2, Alone (run h1).devs.length a) :
    (run (h1 ++ .diode (some T) :: h2)).devs[(run h1).devs.length]? = some ⟨true, T⟩ := by
  rw [run_append, List.foldl_cons]
  exact keep _ _ h2 _ (by simp [step]) ha

/-- C201: a diode without a temperature of its own, or a model, works at the temperature the simulation had when it was
made. What is missing: it does not follow later changes (`C201_follow_refuted`). -/
theorem C201_made_partial (h1 h2 : List (Act K)) (ha : ∀ a ∈ h2, Alone (run h1).devs.length a) :
    (run (h1 ++ .diode none :: h2)).devs[(run h1).devs.length]? = some ⟨true, (run h1).T⟩ ∧
    (run (h1 ++ .model :: h2)).devs[(run h1).devs.length]? = some ⟨false, (run h1).T⟩ := by
  constructor
  · rw [run_append, List.foldl_cons]
    exact keep _ _ h2 _ (by simp [step]) ha
  · rw [run_append, List.foldl_cons]
    exact keep _ _ h2 _ (by simp [step]) ha

/-- C201: as long as the temperature of the simulation is set only before any device is made, and no device is changed, all
devices without a temperature of their own work at the temperature noted with the results. -/
theorem C201_agree (h : List (Act K)) (h' : List (Act K)) (hs : ∀ a ∈ h, ∃ c, a = .simulate c)
    (hn : ∀ a ∈ h', a = .diode none ∨ a = .model ∨ a = .analysis) :
    (∀ d ∈ (run (h ++ h')).devs, d.T = (run h).T) ∧ ∀ T ∈ (run (h ++ h')).noted, T = (run h).T := by
  have h0 : (run h).devs = [] ∧ (run h).noted = [] := by
    clear hn
    induction h using List.reverseRecOn with
    | nil => exact ⟨rfl, rfl⟩
    | append_singleton h a ih =>
      obtain ⟨c, rfl⟩ := hs a (by simp)
      rw [run_append]
      exact ih fun b hb => hs b (by simp [hb])
  have : ∀ (h' : List (Act K)) (w : World K), (∀ a ∈ h', a = .diode none ∨ a = .model ∨ a = .analysis) →
      (∀ d ∈ w.devs, d.T = w.T) → (∀ T ∈ w.noted, T = w.T) →
      (∀ d ∈ (h'.foldl step w).devs, d.T = w.T) ∧ ∀ T ∈ (h'.foldl step w).noted, T = w.T := by
    intro h'
    induction h' with
    | nil => intro w _ h1 h2; exact ⟨h1, h2⟩
    | cons a r ih =>
      intro w hc h1 h2
      rw [List.foldl_cons]
      have hr := fun b hb => hc b (List.mem_cons_of_mem _ hb)
      rcases hc a (List.mem_cons_self ..) with rfl | rfl | rfl
      · refine ih (step w (.diode none)) hr ?_ h2
        intro d hd
        rcases List.mem_append.1 hd with hd | hd
        · exact h1 d hd
        · rw [List.mem_singleton.1 hd]; rfl
      · refine ih (step w .model) hr ?_ h2
        intro d hd
        rcases List.mem_append.1 hd with hd | hd
        · exact h1 d hd
        · rw [List.mem_singleton.1 hd]; rfl
      · refine ih (step w .analysis) hr h1 ?_
        intro T hT
        rcases List.mem_append.1 hT with hT | hT
        · exact h2 T hT
        · rw [List.mem_singleton.1 hT]; rfl
  rw [run_append]
  exact this h' (run h) hn (by rw [h0.1]; simp) (by rw [h0.2]; simp)

/-- C201 refuted: setting the temperature of the simulation changes no device that is there, in any history. -/
theorem C201_follow_refuted (h : List (Act K)) (c : K) : (run (h ++ [.simulate c])).devs = (run h).devs := by
  rw [run_append]; rfl

/-- C201 refuted: results say 373.15 K although the only device of the circuit works at 300 K. -/
theorem C201_noted_refuted : ∃ h : List (Act ℚ), (run h).noted = [37315 / 100] ∧ (run h).devs.map Dev.T = [300] :=
  ⟨[.diode none, .simulate 100, .analysis], by norm_num [run, start, step, kelvin], by norm_num [run, start, step, kelvin]⟩

/-- a diode made after setting the temperature, one with its own, and a model changed later -/
example : (run [.simulate (100 : ℚ), .diode none, .diode (some 250), .model, .adjust 2 310, .simulate 0, .analysis]).devs.map Dev.T =
    [37315 / 100, 250, 310] := by
  norm_num [run, start, step, kelvin]

/-- the hypotheses of `C201_agree` -/
example : (∀ a ∈ [Act.simulate (100 : ℚ)], ∃ c, a = .simulate c) ∧
    ∀ a ∈ [Act.diode (none : Option ℚ), .model, .analysis], a = .diode none ∨ a = .model ∨ a = .analysis := by
  constructor
  · intro a ha
    exact ⟨100, List.mem_singleton.1 ha⟩
  · intro a ha
    simp only [List.mem_cons, List.not_mem_nil, or_false] at ha
    rcases ha with rfl | rfl | rfl
    · exact .inl rfl
    · exact .inr (.inl rfl)
    · exact .inr (.inr rfl)

end Verif.Temp
