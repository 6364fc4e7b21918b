import Verif.Props.Thevenin

/-!
C222: the substitution theorem, and what changing one resistance does. A part of a circuit may be replaced by a source of the current
that it draws or of the voltage that it has.
-/

namespace Verif.Subst
open Verif.Circuit Verif.Mna Verif.Rename Verif.Laws Verif.Rlc Verif.Thevenin

variable {K : Type} [Field K] [LinearOrder K] [IsStrictOrderedRing K] {C B : List (Elem K)} {nv nB m m' m'' : Nat} {s s' s'' : Sys K}
  {gmin : K} {o : Op.OOpts K} {a b : Nat}

omit [LinearOrder K] [IsStrictOrderedRing K] in
/-- a source of the current of the load in place of the load -/
theorem current {t : K} {v : Nat → K} {i : List Char → K} (hnv : 0 < nv) (hle : nv ≤ nB) (hab : a ≠ b) (ha : a < nv) (hb : b < nv)
    (hC : ∀ e ∈ C, NodesLt nv e) (hB : ∀ e ∈ B, Hangs a b nv nB e) (h : Obeys (C ++ B) nB t v i) {iid : String} {w : Src K}
    (hw : t * staticVal w = leaving t v i B a) : Obeys (C ++ [.I iid a b w]) nv t v i := by
  refine replace hnv hle hC h (fun _ _ => rfl) (fun _ _ _ => rfl) (fun _ _ _ _ _ _ _ _ => rfl) (fun r _ hr => ?_) (fun r h1 h2 => by omega)
    (fun e he hv => ?_)
  · rw [load_current hnv hle hab ha hb hC hB h r hr, ← hw]
    simp [leaving, term, cur]
  · simp only [List.mem_singleton] at he
    subst he
    cases hv

omit [LinearOrder K] [IsStrictOrderedRing K] in
/-- a source of the voltage of the load in place of the load -/
theorem voltage {t : K} {v : Nat → K} {i : List Char → K} (hnv : 0 < nv) (hle : nv ≤ nB) (hab : a ≠ b) (ha : a < nv) (hb : b < nv)
    (hC : ∀ e ∈ C, NodesLt nv e) (hB : ∀ e ∈ B, Hangs a b nv nB e) (h : Obeys (C ++ B) nB t v i) {vid : String} {u : Src K}
    (hu : t * staticVal u = v a - v b) (hctrl : ∀ e ∈ C, CtrlExists C e) (hq : UniqueVde (C ++ [.V vid a b u])) :
    Obeys (C ++ [.V vid a b u]) nv t v (Function.update i (upper vid) (leaving t v i B a)) := by
  have hf := fresh (e := .V vid a b u) hq (by simp) rfl
  have hfs := fresh_src (e := .V vid a b u) hq (by simp) rfl hctrl
  refine replace hnv hle hC h (fun _ _ => rfl) (fun e he hv => Function.update_of_ne (hf e he hv) _ _)
    (fun e he id a b src k hk => Function.update_of_ne (hfs e he id a b src k hk) _ _) (fun r _ hr => ?_) (fun r h1 h2 => by omega)
    (fun e he hv => ?_)
  · rw [load_current hnv hle hab ha hb hC hB h r hr]
    simp [leaving, term, cur]
  · simp only [List.mem_singleton] at he
    subst he
    simp only [lawOf, hu, sub_self]

/-- C222: a load (with nodes and elements of its own) replaced by a source of the current that it draws: `op_analysis` reports the same
voltages and currents of the rest. -/
theorem C222_current (ho : Op.Plain o) (hstd : o.meth.std = true) (hab : a ≠ b) (ha : a < nv) (hb : b < nv) (hle : nv ≤ nB)
    (hC : ∀ e ∈ C, NodesLt nv e) (hB : ∀ e ∈ B, Hangs a b nv nB e) (hL : Ready (C ++ B) nB m s gmin) :
    ∃ v i, Reports o gmin (C ++ B) nB m s v i ∧ ∀ iid w m' s', staticVal w = leaving 1 v i B a →
      Ready (C ++ [.I iid a b w]) nv m' s' gmin → Reports o gmin (C ++ [.I iid a b w]) nv m' s' v i := by
  obtain ⟨⟨v, i, r, ob⟩, -⟩ := C171_reports hL ho hstd
  refine ⟨v, i, r, fun iid w m' s' hw hI => ?_⟩
  exact (C171_reports hI ho hstd).2 v i (current hI.pos hle hab ha hb hC hB ob (by rw [one_mul, hw]))

/-- C222: a load replaced by a source of the voltage that it has: the same voltages and currents of the rest, and the source draws what
the load drew. -/
theorem C222_voltage (ho : Op.Plain o) (hstd : o.meth.std = true) (hab : a ≠ b) (ha : a < nv) (hb : b < nv) (hle : nv ≤ nB)
    (hC : ∀ e ∈ C, NodesLt nv e) (hctrl : ∀ e ∈ C, CtrlExists C e) (hB : ∀ e ∈ B, Hangs a b nv nB e) (hL : Ready (C ++ B) nB m s gmin) :
    ∃ v i, Reports o gmin (C ++ B) nB m s v i ∧ ∀ vid u m' s', staticVal u = v a - v b →
      Ready (C ++ [.V vid a b u]) nv m' s' gmin → ∃ i', Reports o gmin (C ++ [.V vid a b u]) nv m' s' v i' ∧
        i' (upper vid) = leaving 1 v i B a ∧ ∀ e ∈ C, e.vde = true → i' (upper e.id) = i (upper e.id) := by
  obtain ⟨⟨v, i, r, ob⟩, -⟩ := C171_reports hL ho hstd
  refine ⟨v, i, r, fun vid u m' s' hu hV => ⟨Function.update i (upper vid) (leaving 1 v i B a), ?_, by simp, fun e he hv => ?_⟩⟩
  · exact (C171_reports hV ho hstd).2 _ _ (voltage hV.pos hle hab ha hb hC hB ob (by rw [one_mul, hu]) hctrl hV.unique)
  · exact Function.update_of_ne (fresh (e := .V vid a b u) hV.unique (by simp) rfl e he hv) _ _

/-- C222: a load that draws no current may be taken away (the detector of a balanced bridge). -/
theorem C222_idle (ho : Op.Plain o) (hstd : o.meth.std = true) (hab : a ≠ b) (ha : a < nv) (hb : b < nv) (hle : nv ≤ nB)
    (hB : ∀ e ∈ B, Hangs a b nv nB e) (hL : Ready (C ++ B) nB m s gmin) (hA : Ready C nv m' s' gmin) :
    ∃ v i, Reports o gmin (C ++ B) nB m s v i ∧ (leaving 1 v i B a = 0 → Reports o gmin C nv m' s' v i) := by
  obtain ⟨⟨v, i, r, ob⟩, -⟩ := C171_reports hL ho hstd
  refine ⟨v, i, r, fun h0 => (C171_reports hA ho hstd).2 v i ?_⟩
  have := replace (B := []) (nB := nv) hA.pos hle hA.nodes ob (fun _ _ => rfl) (fun _ _ _ => rfl) (fun _ _ _ _ _ _ _ _ => rfl)
    (fun r _ hr => by
      rw [load_current hA.pos hle hab ha hb hA.nodes hB ob r hr, h0, Laws.inj_zero]
      simp [leaving]) (fun r h1 h2 => by omega) (fun e he hv => by cases he)
  simpa using this

/-- C222: a resistance `r` that becomes `r'` moves every voltage and current `x` by a fraction `d * V / (1 + d * R)` of what a test current
moves it, where `d` is the change of the conductance, `V` the voltage across the resistor before and `R` the resistance that the test
current finds there: every quantity is a ratio of two expressions of the first degree in the conductance. -/
theorem C222_change (ho : Op.Plain o) (hstd : o.meth.std = true) (hab : a ≠ b) {r r' : K} {rid iid : String} {w : Src K}
    (hw : staticVal w ≠ 0) (hA : Ready (C ++ [.R rid a b r]) nv m s gmin)
    (hI : Ready ((C ++ [.R rid a b r]) ++ [.I iid a b w]) nv m' s' gmin) (hL : Ready (C ++ [.R rid a b r']) nv m'' s'' gmin) :
    ∃ v0 i0 v1 i1 v i, Reports o gmin (C ++ [.R rid a b r]) nv m s v0 i0 ∧
      Reports o gmin ((C ++ [.R rid a b r]) ++ [.I iid a b w]) nv m' s' v1 i1 ∧ Reports o gmin (C ++ [.R rid a b r']) nv m'' s'' v i ∧
      1 + (1 / r' - 1 / r) * inner a b (staticVal w) v0 v1 ≠ 0 ∧
      (v a - v b) * (1 + (1 / r' - 1 / r) * inner a b (staticVal w) v0 v1) = v0 a - v0 b ∧
      (∀ x < nv, v x - v0 x =
        (1 / r' - 1 / r) * (v0 a - v0 b) / (1 + (1 / r' - 1 / r) * inner a b (staticVal w) v0 v1) * ((v1 x - v0 x) / staticVal w)) ∧
      ∀ e ∈ C, e.vde = true → i (upper e.id) - i0 (upper e.id) =
        (1 / r' - 1 / r) * (v0 a - v0 b) / (1 + (1 / r' - 1 / r) * inner a b (staticVal w) v0 v1) *
          ((i1 (upper e.id) - i0 (upper e.id)) / staticVal w) := by
  have hn : NodesLt nv (.R rid a b r) := hA.nodes _ (by simp)
  simp only [NodesLt] at hn
  obtain ⟨⟨v0, i0, r0, o0⟩, -⟩ := C171_reports hA ho hstd
  obtain ⟨⟨v1, i1, r1, o1⟩, -⟩ := C171_reports hI ho hstd
  obtain ⟨⟨v, i, rl, ob⟩, -⟩ := C171_reports hL ho hstd
  set d := 1 / r' - 1 / r with hd
  set R := inner a b (staticVal w) v0 v1 with hR
  -- the changed circuit is the old one with a current source
  have swap : ∀ (t : K) (v : Nat → K) (i : List Char → K) (x : Nat) (w' : Src K), t * staticVal w' = d * (v a - v b) →
      leaving t v i [.R rid a b r'] x = leaving t v i [.R rid a b r, .I iid a b w'] x := by
    intro t v i x w' hw'
    simp only [leaving, term, cur, List.map_cons, List.map_nil, List.sum_cons, List.sum_nil, add_zero, hw', hd]
    simp only [inj]
    split_ifs <;> ring
  have o2 : Obeys ((C ++ [.R rid a b r]) ++ [.I iid a b { dc := some (d * (v a - v b)) }]) nv 1 v i := by
    rw [List.append_assoc]
    refine ⟨ob.ground, fun x h0 hx => ?_, fun e he hv => ?_⟩
    · have := ob.node x h0 hx
      rw [leaving_append] at this ⊢
      rw [swap 1 v i x { dc := some (d * (v a - v b)) } (by simp [staticVal])] at this
      exact this
    · rcases List.mem_append.1 he with he | he
      · exact ob.branch e (List.mem_append_left _ he) hv
      · simp at he
        rcases he with rfl | rfl <;> cases hv
  have hH : ∀ e ∈ [Elem.I iid a b { dc := some (d * (v a - v b)) }], Hangs a b nv nv e := by simp [Hangs, term]
  have hc : leaving 1 v i [Elem.I iid a b { dc := some (d * (v a - v b)) }] a = d * (v a - v b) := by
    simp [leaving, term, cur, inj, hab, staticVal]
  obtain ⟨p1, p2⟩ := port hA le_rfl hab hn.1 hn.2 hH hw o0 o1 o2
  rw [hc] at p1 p2
  have key : (v a - v b) * (1 + d * R) = v0 a - v0 b := by
    have h1 := p1 a hn.1
    have h2 := p1 b hn.2
    rw [hR, inner]
    field_simp at h1 h2 ⊢
    linear_combination h1 - h2
  have hne : 1 + d * R ≠ 0 := by
    intro h0
    have hV1 : d * ((v1 a - v1 b) - (v0 a - v0 b)) = staticVal w := by
      have : R * staticVal w = (v0 a - v0 b) - (v1 a - v1 b) := by rw [hR, inner]; field_simp
      linear_combination d * this - staticVal w * h0
    have hom : Obeys (C ++ [.R rid a b r']) nv 0 (fun r => v1 r + (-1) * v0 r) (fun w => i1 w + (-1) * i0 w) := by
      have ht : (0 : K) = 1 + (-1) * 1 := by ring
      refine ⟨by simp [o0.ground, o1.ground], fun x hx0 hx => ?_, fun e he hv => ?_⟩
      · have e0 := o0.node x hx0 hx
        have e1 := o1.node x hx0 hx
        have e5 : leaving 0 (fun r => v1 r + (-1) * v0 r) (fun w => i1 w + (-1) * i0 w) [.R rid a b r'] x =
            leaving 0 (fun r => v1 r + (-1) * v0 r) (fun w => i1 w + (-1) * i0 w) [.R rid a b r] x + inj a b (staticVal w) x := by
          simp only [leaving, term, cur, List.map_cons, List.map_nil, List.sum_cons, List.sum_nil, add_zero]
          rw [← hV1, hd]
          simp only [inj]
          split_ifs <;> ring
        rw [leaving_append, e5, ← add_assoc, ← leaving_append, ht, leaving_lin, e0]
        rw [leaving_append] at e1
        have e3 : leaving 1 v1 i1 [.I iid a b w] x = inj a b (staticVal w) x := by simp [leaving, term, cur]
        rw [e3] at e1
        linear_combination e1
      · rcases List.mem_append.1 he with he | he
        · rw [ht, law_lin, o0.branch e (by simp [he]) hv, o1.branch e (by simp [he]) hv]
          ring
        · simp only [List.mem_singleton] at he
          subst he
          simp [Elem.vde] at hv
    obtain ⟨q1, -⟩ := (C171_regular hL.pos hL.unique hL.nodes hL.proper hL.gen hL.size).1 hL.det _ _ hom
    have h1 := q1 a hn.1
    have h2 := q1 b hn.2
    exact hw (by linear_combination (-1) * hV1 + d * (h1 - h2))
  have hv : d * (v a - v b) = d * (v0 a - v0 b) / (1 + d * R) := by
    rw [eq_div_iff hne]
    linear_combination d * key
  rw [hv] at p1 p2
  refine ⟨v0, i0, v1, i1, v, i, r0, r1, rl, hne, key, fun x hx => ?_, fun e he hve => ?_⟩
  · rw [p1 x hx]; ring
  · rw [p2 e (by simp [he]) hve]; ring

/-! ### Examples -/

open Verif.Bound

/-- hypotheses of `C222_change`: the resistor of 2 Ω at the port of the circuit of C188 becomes 4 Ω -/
example : Ready (src ++ [.R "RL" 1 0 2]) 3 3 (sysOf (src ++ [.R "RL" 1 0 2]) 3) (1 / 1000) ∧
    Ready ((src ++ [.R "RL" 1 0 2]) ++ [.I "IX" 1 0 { dc := some 1 }]) 3 3
      (sysOf ((src ++ [.R "RL" 1 0 2]) ++ [.I "IX" 1 0 { dc := some 1 }]) 3) (1 / 1000) ∧
    Ready (src ++ [.R "RL" 1 0 4]) 3 3 (sysOf (src ++ [.R "RL" 1 0 4]) 3) (1 / 1000) := by
  refine ⟨?_, ?_, ?_⟩ <;>
  exact ⟨by decide, by unfold UniqueVde; decide +kernel, by simp [src, NodesLt], by simp [src, Proper], rfl, rfl,
      by simp only [Matrix.det_fin_three]; decide +kernel, by simp only [Matrix.det_fin_three]; decide +kernel⟩

/-- 2 Ω have 16/5 V and draw 8/5 A; a source of 8/5 A in their place leaves all as it is -/
example : Obeys (src ++ [.R "RL" 1 0 2]) 3 1 (fun r => if r = 1 then 16 / 5 else if r = 2 then 10 else 0) (fun _ => -(34 / 5)) ∧
    Obeys (src ++ [.I "IL" 1 0 { dc := some (8 / 5) }]) 3 1 (fun r => if r = 1 then 16 / 5 else if r = 2 then 10 else 0)
      (fun _ => -(34 / 5)) ∧
    leaving (α := ℚ) 1 (fun r => if r = 1 then 16 / 5 else if r = 2 then 10 else 0) (fun _ => -(34 / 5)) [.R "RL" 1 0 2] 1 = 8 / 5 := by
  refine ⟨?_, ?_, by decide +kernel⟩ <;>
  · refine ⟨rfl, fun r h0 hr => ?_, fun e he hv => ?_⟩
    · have : r = 1 ∨ r = 2 := by omega
      rcases this with rfl | rfl <;> decide +kernel
    · simp [src] at he
      rcases he with rfl | rfl | rfl | rfl | rfl <;> simp [Elem.vde] at hv
      decide +kernel

/-- a balanced bridge: the detector of 3 Ω between the nodes 2 and 3 draws no current -/
def bridge : List (Elem ℚ) :=
  [.V "V1" 1 0 { dc := some 6 }, .R "R1" 1 2 1, .R "R2" 2 0 2, .R "R3" 1 3 2, .R "R4" 3 0 4]

example : Obeys (bridge ++ [.R "RD" 2 3 3]) 4 1 (fun r => if r = 1 then 6 else if r = 2 ∨ r = 3 then 4 else 0) (fun _ => -3) ∧
    (∀ e ∈ ([.R "RD" 2 3 3] : List (Elem ℚ)), Hangs 2 3 4 4 e) ∧
    leaving (α := ℚ) 1 (fun r => if r = 1 then 6 else if r = 2 ∨ r = 3 then 4 else 0) (fun _ => -3) [.R "RD" 2 3 3] 2 = 0 := by
  refine ⟨⟨rfl, fun r h0 hr => ?_, fun e he hv => ?_⟩, by simp [Hangs, term], by decide +kernel⟩
  · have : r = 1 ∨ r = 2 ∨ r = 3 := by omega
    rcases this with rfl | rfl | rfl <;> decide +kernel
  · simp [bridge] at he
    rcases he with rfl | rfl | rfl | rfl | rfl | rfl <;> simp [Elem.vde] at hv
    decide +kernel

end Verif.Subst
