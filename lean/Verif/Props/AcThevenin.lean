import Verif.Props.AcEquiv

/-!
C221: Thevenin's theorem for AC analyses. Whatever is connected to two nodes of a circuit finds a source with an inner impedance, which
limits the power that it can take.
-/

namespace Verif.AcThevenin
open Verif.Circuit Verif.Mna Verif.Dyn Verif.Rlc Verif.Recip Verif.AcLaws Verif.AcEquiv
open Complex (I)

variable {ph : String → Option ℂ} {s y : ℂ} {nv nB : Nat}

theorem pcur_lin (k : ℂ) (v v0 v1 : Nat → ℂ) (i i0 i1 : List Char → ℂ) (e : Elem ℝ) :
    pcur ph s (fun r => v r + k * (v0 r - v1 r)) (fun w => i w + k * (i0 w - i1 w)) e =
      pcur ph s v i e + k * (pcur ph s v0 i0 e - pcur ph s v1 i1 e) := by
  cases e <;> simp only [pcur] <;> ring

theorem pflux_lin (k : ℂ) (i i0 i1 : List Char → ℂ) (id : String) (l : ℝ) (coup : List (Coupling ℝ)) :
    pflux (fun w => i w + k * (i0 w - i1 w)) id l coup = pflux i id l coup + k * (pflux i0 id l coup - pflux i1 id l coup) := by
  unfold pflux
  have : ∀ c : List (Coupling ℝ), (c.map fun cd => (cd.M : ℂ) * (i (upper (if upper id = upper cd.L1 then cd.L2 else cd.L1)) +
      k * (i0 (upper (if upper id = upper cd.L1 then cd.L2 else cd.L1)) - i1 (upper (if upper id = upper cd.L1 then cd.L2 else cd.L1))))).sum =
      (c.map fun cd => (cd.M : ℂ) * i (upper (if upper id = upper cd.L1 then cd.L2 else cd.L1))).sum +
      k * ((c.map fun cd => (cd.M : ℂ) * i0 (upper (if upper id = upper cd.L1 then cd.L2 else cd.L1))).sum -
        (c.map fun cd => (cd.M : ℂ) * i1 (upper (if upper id = upper cd.L1 then cd.L2 else cd.L1))).sum) := by
    intro c
    induction c with
    | nil => simp
    | cons d c ih =>
      simp only [List.map_cons, List.sum_cons, ih]
      ring
  rw [this]
  ring

theorem plaw_lin (k : ℂ) (v v0 v1 : Nat → ℂ) (i i0 i1 : List Char → ℂ) (e : Elem ℝ) :
    plaw ph s (fun r => v r + k * (v0 r - v1 r)) (fun w => i w + k * (i0 w - i1 w)) e =
      plaw ph s v i e + k * (plaw ph s v0 i0 e - plaw ph s v1 i1 e) := by
  cases e <;> simp only [plaw, pflux_lin] <;> (try split_ifs) <;> ring

theorem inj_neg' (a b : Nat) (x : ℂ) (r : Nat) : inj a b (-x) r = -inj a b x r := by
  simp only [inj]
  split_ifs <;> ring

theorem out_lin (k : ℂ) (v v0 v1 : Nat → ℂ) (i i0 i1 : List Char → ℂ) (A : List (Elem ℝ)) (r : Nat) :
    out ph s (fun r => v r + k * (v0 r - v1 r)) (fun w => i w + k * (i0 w - i1 w)) A r =
      out ph s v i A r + k * (out ph s v0 i0 A r - out ph s v1 i1 A r) := by
  unfold out
  induction A with
  | nil => simp
  | cons e A ih =>
    simp only [List.map_cons, List.sum_cons]
    rw [ih, pcur_lin, inj_add', inj_mul, sub_eq_add_neg, inj_add', inj_neg']
    ring

/-- the load is connected to the two nodes and, for the rest, to nodes of its own -/
def Hangs (a b nv nB : Nat) (e : Elem ℝ) : Prop :=
  ((term e).1 = a ∨ (term e).1 = b ∨ nv ≤ (term e).1 ∧ (term e).1 < nB) ∧
  ((term e).2 = a ∨ (term e).2 = b ∨ nv ≤ (term e).2 ∧ (term e).2 < nB)

theorem sum_inj_zero {n a b : Nat} (ha : a < n) (hb : b < n) (x : ℂ) : ∑ r ∈ Finset.range n, inj a b x r = 0 := by
  have := sum_inj (fun _ => (1 : ℂ)) a b x ha hb
  simpa using this

/-- the current that enters the load at the first node leaves it at the second, unless nodes of the load lose current to the reference -/
theorem load_current {C B : List (Elem ℝ)} {a b : Nat} (hnv : 0 < nv) (hle : nv ≤ nB) (hab : a ≠ b) (ha : a < nv) (hb : b < nv)
    (hy : y = 0 ∨ nB = nv)
    (hC : ∀ e ∈ C, NodesLt nv e) (hB : ∀ e ∈ B, Hangs a b nv nB e) {v : Nat → ℂ} {i : List Char → ℂ}
    (h : Phasors (C ++ B) nB ph s y v i) (r : Nat) (hr : r < nv) : out ph s v i B r = inj a b (out ph s v i B a) r := by
  have lt : ∀ e ∈ B, (term e).1 < nB ∧ (term e).2 < nB := fun e he => by
    have := hB e he
    unfold Hangs at this
    omega
  have total : ∀ l : List (Elem ℝ), (∀ e ∈ l, (term e).1 < nB ∧ (term e).2 < nB) → ∑ r ∈ Finset.range nB, out ph s v i l r = 0 := by
    intro l
    induction l with
    | nil => intro _; simp [out]
    | cons e l ih =>
      intro hl
      have e1 : ∀ r, out ph s v i (e :: l) r = inj (term e).1 (term e).2 (pcur ph s v i e) r + out ph s v i l r := fun r => by
        simp [out]
      have h1 := hl e (List.mem_cons_self ..)
      simp only [e1, Finset.sum_add_distrib, sum_inj_zero h1.1 h1.2, ih fun e' h' => hl e' (List.mem_cons_of_mem _ h'), add_zero]
  have zero : ∀ r, r < nB → r ≠ a → r ≠ b → out ph s v i B r = 0 := by
    intro r hr h1 h2
    by_cases hn : r < nv
    · refine Mna.sum_zero_of _ _ fun e he => ?_
      have := hB e he
      unfold Hangs at this
      exact Laws.inj_other (by omega) (by omega) _
    · have h3 := h.node r (by omega) hr
      change out ph s v i (C ++ B) r + _ = 0 at h3
      rw [out_append, out_new hC hnv r (by omega), zero_add] at h3
      rcases hy with rfl | rfl
      · simpa using h3
      · omega
  have pair : out ph s v i B a + out ph s v i B b = 0 := by
    have := total B lt
    rw [← Finset.sum_subset (s₁ := {a, b}) (by intro x hx; simp at hx ⊢; omega) (fun x hx hx' => by
      simp at hx'
      exact zero x (Finset.mem_range.1 hx) hx'.1 hx'.2), Finset.sum_pair hab] at this
    exact this
  by_cases h1 : r = a
  · subst h1
    simp [inj, hab]
  · by_cases h2 : r = b
    · subst h2
      simp only [inj, if_neg h1, if_pos]
      linear_combination pair
    · rw [zero r (by omega) h1 h2, Laws.inj_other h1 h2]

/-- the circuit with a load, less the effect of the current of the load, is the circuit without -/
theorem port {C B : List (Elem ℝ)} (hnv : 0 < nv) (hC : ∀ e ∈ C, NodesLt nv e) (hle : nv ≤ nB) {a b : Nat} (hab : a ≠ b) (ha : a < nv)
    (hb : b < nv) (hy : y = 0 ∨ nB = nv) (hB : ∀ e ∈ B, Hangs a b nv nB e) {iid : String} {w : Src ℝ} {J : ℂ} (hw : ph iid = some J)
    (hJ : J ≠ 0) {v0 v1 v : Nat → ℂ} {i0 i1 i : List Char → ℂ} (h0 : Phasors C nv ph s y v0 i0)
    (h1 : Phasors (C ++ [.I iid a b w]) nv ph s y v1 i1) (h : Phasors (C ++ B) nB ph s y v i) :
    Phasors C nv ph s y (fun r => v r + out ph s v i B a / J * (v0 r - v1 r)) (fun w => i w + out ph s v i B a / J * (i0 w - i1 w)) := by
  set k := out ph s v i B a / J with hk
  refine ⟨?_, fun r hr0 hr => ?_, fun e he hv => ?_⟩
  · simp only [h.ground, h0.ground, h1.ground]
    ring
  · change out ph s _ _ C r + y * _ = 0
    rw [out_lin]
    have e0 := h0.node r hr0 hr
    have e1 := h1.node r hr0 hr
    have e2 := h.node r hr0 (by omega)
    change out ph s _ _ C r + y * _ = 0 at e0
    change out ph s _ _ (C ++ _) r + y * _ = 0 at e1 e2
    rw [out_append] at e1 e2
    rw [load_current hnv hle hab ha hb hy hC hB h r hr] at e2
    have e3 : out ph s v1 i1 [.I iid a b w] r = inj a b J r := by
      simp [out, term, pcur, hw]
    rw [e3] at e1
    have e4 : inj a b (out ph s v i B a) r = k * inj a b J r := by
      have : out ph s v i B a = k * J := by rw [hk]; field_simp
      rw [this, inj_mul]
    rw [e4] at e2
    linear_combination e2 - k * e1 + k * e0
  · rw [plaw_lin, h0.branch e he hv, h.branch e (List.mem_append_left _ he) hv, h1.branch e (List.mem_append_left _ he) hv]
    ring

/-- the inner impedance: how far the voltage between the nodes falls per ampere drawn -/
noncomputable def inner (a b : Nat) (J : ℂ) (v0 v1 : Nat → ℂ) : ℂ := ((v0 a - v0 b) - (v1 a - v1 b)) / J

/-- what an AC analysis reports with `options.gmin` and `options.cmin` zero is the only phasors there are -/
theorem reported {C : List (Elem ℝ)} {m : Nat} {sys : Sys ℝ} {D : Mat ℝ} (hA : Ready C nv m sys D 0) {p : ℝ × (Fin m → ℂ)}
    (hp : Reports C nv m sys D ph 0 p) :
    Phasors C nv ph (I * (2 * Real.pi * p.1 : ℝ)) 0 (Rlc.ext p.2) (pnamed C nv (Rlc.ext p.2)) ∧
      ∀ v i, Phasors C nv ph (I * (2 * Real.pi * p.1 : ℝ)) 0 v i → (∀ r, r < nv → v r = Rlc.ext p.2 r) ∧
        ∀ e ∈ C, e.vde = true → i (upper e.id) = Rlc.ext p.2 (nv + branchOf C e.id) := by
  obtain ⟨o, t, a, b, n, x0, pts, ho, hr, hm⟩ := hp
  obtain ⟨g, hg, k1, k2⟩ := C174_results hA.pos hA.unique hA.nodes hA.proper hA.gen hA.size hA.dyn ph 0 ho t a b n x0 hr p hm
  have e1 : g = 0 := by tauto
  subst e1
  have e3 : ((0 : ℝ) : ℂ) + I * (2 * Real.pi * p.1 : ℝ) * ((0 : ℝ) : ℂ) = 0 := by simp
  rw [e3] at k1 k2
  exact ⟨k1, k2⟩

variable {C B : List (Elem ℝ)} {m m' m'' : Nat} {s0 s1 s2 : Sys ℝ} {D0 D1 D2 : Mat ℝ} {p0 : ℝ × (Fin m → ℂ)} {p1 : ℝ × (Fin m' → ℂ)}
  {q : ℝ × (Fin m'' → ℂ)} {a b : Nat} {iid : String} {w : Src ℝ} {J : ℂ}

/-- the current that the load draws from the first node, from the results -/
noncomputable def drawn (ph : String → Option ℂ) (C B : List (Elem ℝ)) (nB a : Nat) {m : Nat} (q : ℝ × (Fin m → ℂ)) : ℂ :=
  out ph (I * (2 * Real.pi * q.1 : ℝ)) (Rlc.ext q.2) (pnamed (C ++ B) nB (Rlc.ext q.2)) B a

/-- C221: a circuit `C` (whatever linear elements, coupled inductors and controlled sources it has), alone, with an AC current source
between two nodes, and with any load between them (with nodes and elements of its own), at one frequency: the voltage across the load is
the voltage of the open circuit less the inner impedance, which the current source measures, times the current of the load. Every other
voltage and current of `C` changes in proportion to the current of the load. -/
theorem C221_port (hab : a ≠ b) (ha : a < nv) (hb : b < nv) (hle : nv ≤ nB) (hw : ph iid = some J) (hJ : J ≠ 0)
    (hA : Ready C nv m s0 D0 0) (hI : Ready (C ++ [.I iid a b w]) nv m' s1 D1 0) (hL : Ready (C ++ B) nB m'' s2 D2 0)
    (hB : ∀ e ∈ B, Hangs a b nv nB e) (r0 : Reports C nv m s0 D0 ph 0 p0) (r1 : Reports (C ++ [.I iid a b w]) nv m' s1 D1 ph 0 p1)
    (rq : Reports (C ++ B) nB m'' s2 D2 ph 0 q) (hf1 : p1.1 = p0.1) (hfq : q.1 = p0.1) :
    Rlc.ext q.2 a - Rlc.ext q.2 b =
      (Rlc.ext p0.2 a - Rlc.ext p0.2 b) - inner a b J (Rlc.ext p0.2) (Rlc.ext p1.2) * drawn ph C B nB a q ∧
    (∀ r < nv, Rlc.ext q.2 r - Rlc.ext p0.2 r = drawn ph C B nB a q / J * (Rlc.ext p1.2 r - Rlc.ext p0.2 r)) ∧
    ∀ e ∈ C, e.vde = true → Rlc.ext q.2 (nB + branchOf (C ++ B) e.id) - Rlc.ext p0.2 (nv + branchOf C e.id) =
      drawn ph C B nB a q / J * (Rlc.ext p1.2 (nv + branchOf (C ++ [.I iid a b w]) e.id) - Rlc.ext p0.2 (nv + branchOf C e.id)) := by
  obtain ⟨k0, u0⟩ := reported hA r0
  obtain ⟨k1, -⟩ := reported hI r1
  obtain ⟨kq, -⟩ := reported hL rq
  rw [hf1] at k1
  have hd : drawn ph C B nB a q =
    out ph (I * (2 * Real.pi * p0.1 : ℝ)) (Rlc.ext q.2) (pnamed (C ++ B) nB (Rlc.ext q.2)) B a := by rw [drawn, hfq]
  rw [hfq] at kq
  obtain ⟨e1, e2⟩ := u0 _ _ (port hA.pos hA.nodes hle hab ha hb (Or.inl rfl) hB hw hJ k0 k1 kq)
  rw [← hd] at e1 e2
  refine ⟨?_, fun r hr => by linear_combination e1 r hr, fun e he hv => ?_⟩
  · have g1 := e1 a ha
    have g2 := e1 b hb
    rw [inner]
    field_simp at g1 g2 ⊢
    linear_combination g1 - g2
  · have := e2 e he hv
    simp only [pnamed_upper] at this
    linear_combination this

/-- C221: the load takes no more power than the square of the voltage of the open circuit over four times the inner resistance, whatever
it consists of, and that much if its voltage is the complex conjugate of the inner impedance times its current. (Phasors of amplitudes: the
power over a period is half of the real part of voltage times conjugate current, on both sides.) -/
theorem C221_available (hab : a ≠ b) (ha : a < nv) (hb : b < nv) (hle : nv ≤ nB) (hw : ph iid = some J) (hJ : J ≠ 0)
    (hA : Ready C nv m s0 D0 0) (hI : Ready (C ++ [.I iid a b w]) nv m' s1 D1 0) (hL : Ready (C ++ B) nB m'' s2 D2 0)
    (hB : ∀ e ∈ B, Hangs a b nv nB e) (r0 : Reports C nv m s0 D0 ph 0 p0) (r1 : Reports (C ++ [.I iid a b w]) nv m' s1 D1 ph 0 p1)
    (rq : Reports (C ++ B) nB m'' s2 D2 ph 0 q) (hf1 : p1.1 = p0.1) (hfq : q.1 = p0.1)
    (hR : 0 < (inner a b J (Rlc.ext p0.2) (Rlc.ext p1.2)).re) :
    let z := inner a b J (Rlc.ext p0.2) (Rlc.ext p1.2)
    let x := drawn ph C B nB a q
    let V := Rlc.ext q.2 a - Rlc.ext q.2 b
    let E := Rlc.ext p0.2 a - Rlc.ext p0.2 b
    (V * (starRingEnd ℂ) x).re ≤ Complex.normSq E / (4 * z.re) ∧
      ((V * (starRingEnd ℂ) x).re = Complex.normSq E / (4 * z.re) ↔ V = (starRingEnd ℂ) z * x) := by
  intro z x V E
  have h : V = E - z * x := (C221_port hab ha hb hle hw hJ hA hI hL hB r0 r1 rq hf1 hfq).1
  have hR : 0 < z.re := hR
  clear_value z x V E
  subst h
  have key : Complex.normSq E / (4 * z.re) - ((E - z * x) * (starRingEnd ℂ) x).re = Complex.normSq (E - 2 * z.re * x) / (4 * z.re) := by
    rw [eq_div_iff (by positivity), sub_mul, div_mul_cancel₀ _ (by positivity)]
    simp [Complex.normSq_apply]
    ring
  constructor
  · have : 0 ≤ Complex.normSq (E - 2 * z.re * x) / (4 * z.re) := div_nonneg (Complex.normSq_nonneg _) (by positivity)
    linarith
  · have h1 : ((E - z * x) * (starRingEnd ℂ) x).re = Complex.normSq E / (4 * z.re) ↔ Complex.normSq (E - 2 * z.re * x) = 0 := by
      constructor
      · intro h
        rw [h, sub_self] at key
        rcases div_eq_zero_iff.1 key.symm with h | h
        · exact h
        · linarith
      · intro h
        rw [h, zero_div] at key
        linarith
    rw [h1, Complex.normSq_eq_zero, sub_eq_zero]
    have h2 : (2 * z.re : ℂ) = z + (starRingEnd ℂ) z := by
      rw [Complex.add_conj]; push_cast; ring
    rw [h2, sub_eq_iff_eq_add]
    constructor
    · intro h; linear_combination h
    · intro h; linear_combination h

/-- C221: an element with the impedance `zl` (a resistor, a capacitor or an inductor) forms a voltage divider with the inner impedance. -/
theorem C221_divider {e : Elem ℝ} {zl : ℂ} (hab : a ≠ b) (ha : a < nv) (hb : b < nv) (hw : ph iid = some J) (hJ : J ≠ 0)
    (hA : Ready C nv m s0 D0 0) (hI : Ready (C ++ [.I iid a b w]) nv m' s1 D1 0) (hL : Ready (C ++ [e]) nv m'' s2 D2 0)
    (r0 : Reports C nv m s0 D0 ph 0 p0) (r1 : Reports (C ++ [.I iid a b w]) nv m' s1 D1 ph 0 p1)
    (rq : Reports (C ++ [e]) nv m'' s2 D2 ph 0 q) (hf1 : p1.1 = p0.1) (hfq : q.1 = p0.1)
    (he : (∃ id r, e = .R id a b r ∧ r ≠ 0 ∧ zl = r) ∨
      (∃ id c ic, e = .C id a b c ic ∧ c ≠ 0 ∧ p0.1 ≠ 0 ∧ zl = 1 / (I * (2 * Real.pi * p0.1 : ℝ) * c)) ∨
      ∃ id l ic, e = .L id a b l ic [] ∧ zl = I * (2 * Real.pi * p0.1 : ℝ) * l) :
    Rlc.ext q.2 a - Rlc.ext q.2 b = zl * drawn ph C [e] nv a q ∧
    drawn ph C [e] nv a q * (zl + inner a b J (Rlc.ext p0.2) (Rlc.ext p1.2)) = Rlc.ext p0.2 a - Rlc.ext p0.2 b := by
  have hB : ∀ x ∈ [e], Hangs a b nv nv x := by
    rcases he with ⟨_, _, rfl, -⟩ | ⟨_, _, _, rfl, -⟩ | ⟨_, _, _, rfl, -⟩ <;> simp [Hangs, term]
  have h := (C221_port hab ha hb le_rfl hw hJ hA hI hL hB r0 r1 rq hf1 hfq).1
  obtain ⟨kq, -⟩ := reported hL rq
  rw [hfq] at kq
  have hz : Rlc.ext q.2 a - Rlc.ext q.2 b = zl * drawn ph C [e] nv a q := by
    rcases he with ⟨id, r, rfl, hr, rfl⟩ | ⟨id, c, ic, rfl, hc, hw0, rfl⟩ | ⟨id, l, ic, rfl, rfl⟩
    · have : (r : ℂ) ≠ 0 := by exact_mod_cast hr
      simp only [drawn, out, List.map_cons, List.map_nil, List.sum_cons, List.sum_nil, term, inj, pcur, hab, if_true, if_false, add_zero]
      field_simp
      try simp
    · have g : I * (2 * Real.pi * p0.1 : ℝ) * (c : ℂ) ≠ 0 := by
        have := Real.pi_ne_zero
        simp [Complex.I_ne_zero, hc, hw0, this]
      simp only [drawn, out, List.map_cons, List.map_nil, List.sum_cons, List.sum_nil, term, inj, pcur, hab, if_true, if_false, add_zero, hfq]
      rw [one_div, sub_zero, ← mul_assoc, inv_mul_cancel₀ g, one_mul]
    · have hl := kq.branch (.L id a b l ic []) (by simp) rfl
      simp only [plaw, pflux, List.map_nil, List.sum_nil, add_zero] at hl
      simp only [drawn, out, List.map_cons, List.map_nil, List.sum_cons, List.sum_nil, term, inj, pcur, hab, if_true, if_false, add_zero]
      linear_combination hl
  refine ⟨hz, ?_⟩
  linear_combination h - hz

/-- C221, Norton's form: a voltage source between the nodes carries the current that the difference between the voltage of the open
circuit and its own drives through the inner impedance; one without AC value (an ammeter) shows the current of Norton's source. -/
theorem C221_norton {vid : String} {u : Src ℝ} (hab : a ≠ b) (ha : a < nv) (hb : b < nv) (hw : ph iid = some J) (hJ : J ≠ 0)
    (hA : Ready C nv m s0 D0 0) (hI : Ready (C ++ [.I iid a b w]) nv m' s1 D1 0) (hL : Ready (C ++ [.V vid a b u]) nv m'' s2 D2 0)
    (r0 : Reports C nv m s0 D0 ph 0 p0) (r1 : Reports (C ++ [.I iid a b w]) nv m' s1 D1 ph 0 p1)
    (rq : Reports (C ++ [.V vid a b u]) nv m'' s2 D2 ph 0 q) (hf1 : p1.1 = p0.1) (hfq : q.1 = p0.1) :
    Rlc.ext q.2 (nv + branchOf (C ++ [.V vid a b u]) vid) * inner a b J (Rlc.ext p0.2) (Rlc.ext p1.2) =
      (Rlc.ext p0.2 a - Rlc.ext p0.2 b) - (ph vid).getD 0 := by
  have hB : ∀ x ∈ [Elem.V vid a b u], Hangs a b nv nv x := by simp [Hangs, term]
  have h := (C221_port hab ha hb le_rfl hw hJ hA hI hL hB r0 r1 rq hf1 hfq).1
  obtain ⟨kq, -⟩ := reported hL rq
  have hl := kq.branch (.V vid a b u) (by simp) rfl
  simp only [plaw] at hl
  have hd : drawn ph C [.V vid a b u] nv a q = Rlc.ext q.2 (nv + branchOf (C ++ [.V vid a b u]) vid) := by
    simp only [drawn, out, List.map_cons, List.map_nil, List.sum_cons, List.sum_nil, term, inj, pcur, hab, if_true, if_false, add_zero]
    rw [pnamed_upper, sub_zero]
  rw [hd] at h
  linear_combination h - hl

/-! ### Examples -/

/-- a conductance at the only node: there is a result at every frequency -/
theorem exReports {l : List (Elem ℝ)} {sys : Sys ℝ} {D : Mat ℝ} (hM : 0 < sys.M 1 1) (ph : String → Option ℂ) (f : ℝ) (hf : f ≠ 0) :
    ∃ z, Reports l 2 1 sys D ph 0 (f, z) := by
  obtain ⟨z, hz, -⟩ := (Ac.C120_points (o := ⟨⟨true, true, true, 27⟩, false⟩) ⟨rfl, rfl, rfl, by decide, rfl⟩
    ⟨reduce 1 sys.M, reduce 1 D, 0, reduceV 1 (genNac (l.map (Stable.lift ph)) 2).2, 2 - 1, 0⟩ 0).2.2 .lin f (.inl rfl) hf (by
      rintro ⟨-, h⟩
      have := congrArg Complex.re h
      simp [Ac.Y, reduce] at this
      linarith)
  exact ⟨z, _, .lin, f, f, 1, 0, _, ⟨rfl, rfl, rfl, by decide, rfl⟩, hz, by simp⟩

/-- 1 ohm and 1 F at one node, and a current source -/
def exC : List (Elem ℝ) := [.R "R1" 1 0 1, .C "C1" 1 0 1 none, .I "I1" 0 1 { dc := some 0, ac := some 1 }]

/-- alone, with a test source and with a load of 1 ohm, at 1 Hz -/
theorem exMain (ph : String → Option ℂ) (l : List (Elem ℝ))
    (hl : l = [] ∨ l = [.I "I2" 1 0 { dc := some 0, ac := some 1 }] ∨ l = [.R "R2" 1 0 1]) :
    ∃ s D z, Ready (exC ++ l) 2 1 s D 0 ∧ Reports (exC ++ l) 2 1 s D ph 0 (1, z) := by
  obtain ⟨s, hs, hS, hM⟩ : ∃ s : Sys ℝ, generate (exC ++ l) 2 = .ok s ∧ s.size = 2 ∧ 0 < s.M 1 1 := by
    rcases hl with rfl | rfl | rfl
    · exact ⟨_, rfl, rfl, by simp [Mat.add, Mat.put]⟩
    · exact ⟨_, rfl, rfl, by simp [Mat.add, Mat.put]⟩
    · exact ⟨_, rfl, rfl, by simp [Mat.add, Mat.put]⟩
  obtain ⟨D, hD⟩ : ∃ D : Mat ℝ, generateAC (exC ++ l) 2 s.size 0 = .ok D := by
    rw [hS]
    rcases hl with rfl | rfl | rfl <;> exact ⟨_, rfl⟩
  obtain ⟨z, hz⟩ := exReports (l := exC ++ l) (D := D) hM ph 1 one_ne_zero
  refine ⟨s, D, z, ⟨by omega, ?_, ?_, ?_, hs, hS, hD⟩, hz⟩
  · rcases hl with rfl | rfl | rfl <;> simp [exC, UniqueVde, vdes, Elem.vde]
  · rcases hl with rfl | rfl | rfl <;> simp [exC, NodesLt]
  · rcases hl with rfl | rfl | rfl <;> simp [exC, Proper]

/-- the hypotheses of `C221_port` and `C221_divider` with a load of 1 ohm at 1 Hz -/
example : ∃ s0 s1 s2 D0 D1 D2 z0 z1 z2, Ready exC 2 1 s0 D0 0 ∧ Ready (exC ++ [.I "I2" 1 0 { dc := some 0, ac := some 1 }]) 2 1 s1 D1 0 ∧
    Ready (exC ++ [.R "R2" 1 0 1]) 2 1 s2 D2 0 ∧ Reports exC 2 1 s0 D0 (fun _ => some 1) 0 (1, z0) ∧
    Reports (exC ++ [.I "I2" 1 0 { dc := some 0, ac := some 1 }]) 2 1 s1 D1 (fun _ => some 1) 0 (1, z1) ∧
    Reports (exC ++ [.R "R2" 1 0 1]) 2 1 s2 D2 (fun _ => some 1) 0 (1, z2) := by
  obtain ⟨s0, D0, z0, a0, b0⟩ := exMain (fun _ => some 1) [] (by simp)
  obtain ⟨s1, D1, z1, a1, b1⟩ := exMain (fun _ => some 1) _ (.inr (.inl rfl))
  obtain ⟨s2, D2, z2, a2, b2⟩ := exMain (fun _ => some 1) _ (.inr (.inr rfl))
  exact ⟨s0, s1, s2, D0, D1, D2, z0, z1, z2, by simpa using a0, a1, a2, by simpa using b0, b1, b2⟩

/-- with an ammeter -/
def exV : List (Elem ℝ) := exC ++ [.V "V2" 1 0 { dc := some 0 }]

/-- the hypotheses of `C221_norton` for the loaded circuit: an ammeter at 1 Hz -/
example (ph : String → Option ℂ) : ∃ s D z, Ready exV 2 2 s D 0 ∧
    Reports exV 2 2 s D ph 0 (1, z) := by
  obtain ⟨s, hs, hS, h11, h12, h21, h22⟩ : ∃ s : Sys ℝ, generate exV 2 = .ok s ∧ s.size = 3 ∧ s.M 1 1 = 1 ∧ s.M 1 2 = 1 ∧ s.M 2 1 = 1 ∧
      s.M 2 2 = 0 := by
    refine ⟨_, rfl, rfl, ?_, ?_, ?_, ?_⟩ <;> simp [Mat.add, Mat.put]
  obtain ⟨D, hD, d12, d21, d22⟩ : ∃ D : Mat ℝ, generateAC exV 2 s.size 0 = .ok D ∧ D 1 2 = 0 ∧ D 2 1 = 0 ∧ D 2 2 = 0 := by
    rw [hS]
    refine ⟨_, rfl, ?_, ?_, ?_⟩ <;> simp [Mat.add, Mat.put, Elem.vde]
  obtain ⟨z, hz, -⟩ := (Ac.C120_points (o := ⟨⟨true, true, true, 27⟩, false⟩) ⟨rfl, rfl, rfl, by decide, rfl⟩
    ⟨reduce 2 s.M, reduce 2 D, 0, reduceV 2 (genNac (exV.map (Stable.lift ph)) 2).2, 2 - 1, 0⟩ 0).2.2 .lin 1 (.inl rfl) one_ne_zero (by
      rintro ⟨-, h⟩
      simp [Matrix.det_fin_two, Ac.Y, reduce, h11, h12, h21, h22, d12, d21, d22] at h)
  exact ⟨s, D, z, ⟨by omega, by simp [exV, exC, UniqueVde, vdes, Elem.vde, List.filter], by simp [exV, exC, NodesLt], by simp [exV, exC, Proper], hs, hS, hD⟩,
    _, .lin, 1, 1, 1, 0, _, ⟨rfl, rfl, rfl, by decide, rfl⟩, hz, by simp⟩

end Verif.AcThevenin
