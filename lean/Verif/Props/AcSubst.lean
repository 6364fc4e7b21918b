import Verif.Props.AcThevenin

/-!
C222 for AC analyses: a part of a circuit may be replaced by a source of the current that it draws or of the voltage that it has.
-/

namespace Verif.AcSubst
open Verif.Circuit Verif.Mna Verif.Dyn Verif.Rlc Verif.Recip Verif.AcLaws Verif.AcEquiv Verif.AcThevenin
open Complex (I)

variable {ph ph' : String → Option ℂ} {s : ℂ} {nv nB : Nat} {C B : List (Elem ℝ)} {m m' : Nat} {s0 s1 : Sys ℝ} {D0 D1 : Mat ℝ}
  {p : ℝ × (Fin m → ℂ)} {q : ℝ × (Fin m' → ℂ)} {a b : Nat}

/-- the sources of the circuit `C` keep their phasors -/
def Keeps (ph ph' : String → Option ℂ) (C : List (Elem ℝ)) : Prop :=
  ∀ e ∈ C, ∀ id a b w, (e = .V id a b w ∨ e = .I id a b w) → ph' id = ph id

theorem pcur_keep (v : Nat → ℂ) (i : List Char → ℂ) (e : Elem ℝ) (h : ∀ id a b w, (e = .V id a b w ∨ e = .I id a b w) → ph' id = ph id) :
    pcur ph' s v i e = pcur ph s v i e := by
  cases e <;> simp only [pcur]
  case I => rw [h _ _ _ _ (.inr rfl)]

theorem plaw_keep (v : Nat → ℂ) (i : List Char → ℂ) (e : Elem ℝ) (h : ∀ id a b w, (e = .V id a b w ∨ e = .I id a b w) → ph' id = ph id) :
    plaw ph' s v i e = plaw ph s v i e := by
  cases e <;> simp only [plaw]
  case V => rw [h _ _ _ _ (.inl rfl)]

theorem out_keep (v : Nat → ℂ) (i : List Char → ℂ) (h : Keeps ph ph' C) (r : Nat) : out ph' s v i C r = out ph s v i C r := by
  unfold out
  congr 1
  apply List.map_congr_left
  intro e he
  rw [pcur_keep v i e (h e he)]

/-- a source that carries the current of the load, in place of the load -/
theorem swap {v : Nat → ℂ} {i i' : List Char → ℂ} (hnv : 0 < nv) (hle : nv ≤ nB) (hab : a ≠ b) (ha : a < nv) (hb : b < nv)
    (hC : ∀ e ∈ C, NodesLt nv e) (hB : ∀ e ∈ B, Hangs a b nv nB e) (h : Phasors (C ++ B) nB ph s 0 v i) (hk : Keeps ph ph' C)
    (hi : ∀ e ∈ C, ∀ w ∈ refs e, i' w = i w) (f : Elem ℝ) (ht : term f = (a, b)) (hf : pcur ph' s v i' f = out ph s v i B a)
    (hl : f.vde = true → plaw ph' s v i' f = 0) : Phasors (C ++ [f]) nv ph' s 0 v i' := by
  have hcur : ∀ r, out ph' s v i' C r = out ph s v i C r := fun r => by
    rw [out_keep v i' hk r]
    unfold out
    congr 1
    apply List.map_congr_left
    intro e he
    rw [pcur_congr (hC e he) (fun _ _ => rfl) (hi e he)]
  refine ⟨h.ground, fun r h0 hr => ?_, fun e he hv => ?_⟩
  · change out ph' s v i' (C ++ [f]) r + _ = 0
    have := h.node r h0 (by omega)
    change out ph s v i (C ++ B) r + _ = 0 at this
    rw [out_append, load_current hnv hle hab ha hb (.inl rfl) hC hB h r hr] at this
    rw [out_append, hcur]
    have e1 : out ph' s v i' [f] r = inj a b (out ph s v i B a) r := by simp [out, ht, hf]
    rw [e1]
    exact this
  · rcases List.mem_append.1 he with he | he
    · rw [plaw_keep v i' e (hk e he), plaw_congr (hC e he) (fun _ _ => rfl) (hi e he)]
      exact h.branch e (List.mem_append_left _ he) hv
    · simp only [List.mem_singleton] at he
      subst he
      exact hl hv

/-- C222 for AC analyses: a load replaced by a source of the current that it draws; at that frequency `ac_analysis` reports the same voltages
and currents of the rest. -/
theorem C222_ac_current {iid : String} {w : Src ℝ} (hab : a ≠ b) (ha : a < nv) (hb : b < nv) (hle : nv ≤ nB) (hC : ∀ e ∈ C, NodesLt nv e)
    (hB : ∀ e ∈ B, Hangs a b nv nB e) (hL : Ready (C ++ B) nB m s0 D0 0) (hI : Ready (C ++ [.I iid a b w]) nv m' s1 D1 0)
    (hk : Keeps ph ph' C) (hp : Reports (C ++ B) nB m s0 D0 ph 0 p) (hq : Reports (C ++ [.I iid a b w]) nv m' s1 D1 ph' 0 q)
    (hf : q.1 = p.1) (hw : ph' iid = some (drawn ph C B nB a p)) :
    (∀ r, r < nv → Rlc.ext q.2 r = Rlc.ext p.2 r) ∧
    ∀ e ∈ C, e.vde = true → Rlc.ext q.2 (nv + branchOf (C ++ [.I iid a b w]) e.id) = Rlc.ext p.2 (nB + branchOf (C ++ B) e.id) := by
  obtain ⟨kp, -⟩ := reported hL hp
  obtain ⟨-, uq⟩ := reported hI hq
  rw [hf] at uq
  obtain ⟨e1, e2⟩ := uq _ _ (swap hI.pos hle hab ha hb hC hB kp hk (fun _ _ _ _ => rfl) (.I iid a b w) rfl
    (by simp [pcur, hw, drawn]) (fun h => by cases h))
  refine ⟨fun r hr => (e1 r hr).symm, fun e he hv => ?_⟩
  rw [← e2 e (by simp [he]) hv, pnamed_upper]

/-- C222 for AC analyses: a load replaced by a source of the voltage that it has; the source draws what the load drew. -/
theorem C222_ac_voltage {vid : String} {u : Src ℝ} (hab : a ≠ b) (ha : a < nv) (hb : b < nv) (hle : nv ≤ nB) (hC : ∀ e ∈ C, NodesLt nv e)
    (hB : ∀ e ∈ B, Hangs a b nv nB e) (hL : Ready (C ++ B) nB m s0 D0 0) (hV : Ready (C ++ [.V vid a b u]) nv m' s1 D1 0)
    (hk : Keeps ph ph' C) (hn : Unused C [vid]) (hp : Reports (C ++ B) nB m s0 D0 ph 0 p)
    (hq : Reports (C ++ [.V vid a b u]) nv m' s1 D1 ph' 0 q) (hf : q.1 = p.1) (hw : ph' vid = some (Rlc.ext p.2 a - Rlc.ext p.2 b)) :
    (∀ r, r < nv → Rlc.ext q.2 r = Rlc.ext p.2 r) ∧
    (∀ e ∈ C, e.vde = true → Rlc.ext q.2 (nv + branchOf (C ++ [.V vid a b u]) e.id) = Rlc.ext p.2 (nB + branchOf (C ++ B) e.id)) ∧
    Rlc.ext q.2 (nv + branchOf (C ++ [.V vid a b u]) vid) = drawn ph C B nB a p := by
  obtain ⟨kp, -⟩ := reported hL hp
  obtain ⟨-, uq⟩ := reported hV hq
  rw [hf] at uq
  have hu : ∀ e ∈ C, ∀ w ∈ refs e, Function.update (pnamed (C ++ B) nB (Rlc.ext p.2)) (upper vid) (drawn ph C B nB a p) w =
      pnamed (C ++ B) nB (Rlc.ext p.2) w := fun e he w hw => Function.update_of_ne (hn e he w hw vid (by simp)) _ _
  obtain ⟨e1, e2⟩ := uq _ _ (swap hV.pos hle hab ha hb hC hB kp hk hu (.V vid a b u) rfl
    (by simp [pcur, drawn]) (fun _ => by simp [plaw, hw]))
  refine ⟨fun r hr => (e1 r hr).symm, fun e he hv => ?_, ?_⟩
  · rw [← e2 e (by simp [he]) hv, hu e he _ (by cases e <;> simp_all [Elem.vde, refs, Elem.id]), pnamed_upper]
  · have := e2 (.V vid a b u) (by simp) rfl
    simp only [Elem.id, Function.update_self] at this
    exact this.symm

/-! ### Examples -/

/-- the hypotheses of `C222_ac_current`: 1 ohm in the circuit of C221, and the source that replaces it -/
example : ∃ (ph' : String → Option ℂ) (s0 s1 : Sys ℝ) (D0 D1 : Mat ℝ) (z0 z1 : Fin 1 → ℂ), Ready (AcThevenin.exC ++ [.R "R2" 1 0 1]) 2 1 s0 D0 0 ∧
    Ready (AcThevenin.exC ++ [.I "I2" 1 0 { dc := some 0, ac := some 1 }]) 2 1 s1 D1 0 ∧ Keeps (fun _ => some 1) ph' AcThevenin.exC ∧
    Reports (AcThevenin.exC ++ [.R "R2" 1 0 1]) 2 1 s0 D0 (fun _ => some 1) 0 (1, z0) ∧
    Reports (AcThevenin.exC ++ [.I "I2" 1 0 { dc := some 0, ac := some 1 }]) 2 1 s1 D1 ph' 0 (1, z1) ∧
    ph' "I2" = some (drawn (fun _ => some 1) AcThevenin.exC [.R "R2" 1 0 1] 2 1 (1, z0)) ∧ Unused AcThevenin.exC ["V2"] := by
  obtain ⟨s0, D0, z0, a0, b0⟩ := exMain (fun _ => some 1) _ (.inr (.inr rfl))
  obtain ⟨s1, D1, z1, a1, b1⟩ := exMain (fun id => if id = "I2" then some (drawn (fun _ => some 1) AcThevenin.exC [.R "R2" 1 0 1] 2 1 (1, z0))
    else some 1) _ (.inr (.inl rfl))
  refine ⟨_, s0, s1, D0, D1, z0, z1, a0, a1, ?_, b0, b1, if_pos rfl, by simp [Unused, AcThevenin.exC, refs]⟩
  intro e he id a b w h
  simp only [AcThevenin.exC, List.mem_cons, List.not_mem_nil, or_false] at he
  rcases he with rfl | rfl | rfl <;> rcases h with h | h <;> cases h
  rfl

end Verif.AcSubst
