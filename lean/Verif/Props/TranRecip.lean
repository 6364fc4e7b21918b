import Verif.Props.Conserve
import Verif.Props.Recip

/-!
Property C218: reciprocity of transients. `transient_analysis` with implicit Euler and a fixed step, of a circuit of resistors,
capacitors, inductors (also coupled) and independent sources that starts without energy.
-/

namespace Verif.TranRecip
open Verif.Circuit Verif.Mna Verif.Dyn Verif.Op Verif.Tran Verif.Rlc Verif.Recip Verif.Conserve Matrix

variable {K : Type} [Field K] [LinearOrder K] [IsStrictOrderedRing K] {m : Nat}

/-! ### Sequences -/

omit [LinearOrder K] [IsStrictOrderedRing K] in
theorem bil_symm {A : Matrix (Fin m) (Fin m) K} (hA : A.transpose = A) (x y : Fin m → K) :
    x ⬝ᵥ (A *ᵥ y) = y ⬝ᵥ (A *ᵥ x) := by
  rw [dotProduct_mulVec, ← mulVec_transpose, hA, dotProduct_comm]

omit [LinearOrder K] [IsStrictOrderedRing K] in
/-- the responses of two sequences of sources, each weighed with the other sources in reversed order -/
theorem conv {A B : Matrix (Fin m) (Fin m) K} (hA : A.transpose = A) (hB : B.transpose = B) {X Y b c : Nat → Fin m → K} {N : Nat}
    (x0 : X 0 = 0) (y0 : Y 0 = 0) (hX : ∀ k < N, A *ᵥ X (k + 1) + b (k + 1) = B *ᵥ X k)
    (hY : ∀ k < N, A *ᵥ Y (k + 1) + c (k + 1) = B *ᵥ Y k) :
    ∑ k ∈ Finset.range N, X (k + 1) ⬝ᵥ c (N - k) = ∑ k ∈ Finset.range N, Y (k + 1) ⬝ᵥ b (N - k) := by
  have e1 : ∀ {X Y c : Nat → Fin m → K}, (∀ k < N, A *ᵥ Y (k + 1) + c (k + 1) = B *ᵥ Y k) →
      ∑ k ∈ Finset.range N, X (k + 1) ⬝ᵥ c (N - k) = ∑ k ∈ Finset.range N, X (k + 1) ⬝ᵥ (B *ᵥ Y (N - 1 - k)) -
        ∑ k ∈ Finset.range N, X (k + 1) ⬝ᵥ (A *ᵥ Y (N - k)) := by
    intro X Y c h
    rw [← Finset.sum_sub_distrib]
    refine Finset.sum_congr rfl fun k hk => ?_
    have hk := Finset.mem_range.1 hk
    have := h (N - 1 - k) (by omega)
    rw [show N - 1 - k + 1 = N - k by omega] at this
    rw [← dotProduct_sub, ← this, add_sub_cancel_left]
  rw [e1 hY, e1 hX]
  congr 1
  · obtain _ | M := N
    · simp
    · rw [Finset.sum_range_succ, Finset.sum_range_succ (fun k => Y (k + 1) ⬝ᵥ (B *ᵥ X (M + 1 - 1 - k)))]
      simp only [Nat.add_sub_cancel, Nat.sub_self, x0, y0, mulVec_zero, dotProduct_zero, add_zero]
      rw [← Finset.sum_range_reflect]
      refine Finset.sum_congr rfl fun k hk => ?_
      have hk := Finset.mem_range.1 hk
      rw [bil_symm hB, show M - (M - 1 - k) = k + 1 by omega, show M - 1 - k + 1 = M - k by omega]
  · rw [← Finset.sum_range_reflect]
    refine Finset.sum_congr rfl fun k hk => ?_
    have hk := Finset.mem_range.1 hk
    rw [bil_symm hA, show N - (N - 1 - k) = k + 1 by omega, show N - 1 - k + 1 = N - k by omega]

/-- the response to a sequence of sources -/
noncomputable def resp (A B : Matrix (Fin m) (Fin m) K) (b : Nat → Fin m → K) : Nat → Fin m → K
  | 0 => 0
  | k + 1 => A⁻¹ *ᵥ (B *ᵥ resp A B b k - b (k + 1))

omit [LinearOrder K] [IsStrictOrderedRing K] in
theorem resp_eq {A B : Matrix (Fin m) (Fin m) K} (hd : A.det ≠ 0) (b : Nat → Fin m → K) (k : Nat) :
    A *ᵥ resp A B b (k + 1) + b (k + 1) = B *ᵥ resp A B b k := by
  rw [resp, mulVec_mulVec, Matrix.mul_nonsing_inv _ (isUnit_iff_ne_zero.2 hd), one_mulVec, sub_add_cancel]

omit [LinearOrder K] [IsStrictOrderedRing K] in
/-- the same wave form at two places -/
theorem wave {A B : Matrix (Fin m) (Fin m) K} (hA : A.transpose = A) (hB : B.transpose = B) (hd : A.det ≠ 0) {X Y : Nat → Fin m → K}
    {u w : Fin m → K} {f : Nat → K} {N : Nat} (x0 : X 0 = 0) (y0 : Y 0 = 0)
    (hX : ∀ k < N, A *ᵥ X (k + 1) + f (k + 1) • u = B *ᵥ X k) (hY : ∀ k < N, A *ᵥ Y (k + 1) + f (k + 1) • w = B *ᵥ Y k)
    (k : Nat) (hk : k ≤ N) : X k ⬝ᵥ w = Y k ⬝ᵥ u := by
  obtain _ | M := k
  · simp [x0, y0]
  have pulse : ∀ (v : Fin m → K) {Z c : Nat → Fin m → K} (M : Nat), Z 0 = 0 →
      (∀ k < M + 1, A *ᵥ Z (k + 1) + c (k + 1) = B *ᵥ Z k) →
      Z (M + 1) ⬝ᵥ v = ∑ k ∈ Finset.range (M + 1), resp A B (fun j => if j = 1 then v else 0) (k + 1) ⬝ᵥ c (M + 1 - k) := by
    intro v Z c M z0 hZ
    rw [← conv hA hB z0 (Y := resp A B fun j => if j = 1 then v else 0) (c := fun j => if j = 1 then v else 0) rfl hZ fun k _ => resp_eq hd _ k,
      Finset.sum_eq_single M]
    · rw [show M + 1 - M = 1 by omega, if_pos rfl]
    · intro j hj hne
      have := Finset.mem_range.1 hj
      rw [if_neg (by omega), dotProduct_zero]
    · intro h
      exact absurd (Finset.mem_range.2 (Nat.lt_succ_self M)) h
  rw [pulse w M x0 (c := fun k => f k • u) fun k h => hX k (by omega), pulse u M y0 (c := fun k => f k • w) fun k h => hY k (by omega)]
  refine Finset.sum_congr rfl fun j hj => ?_
  simp only [dotProduct_smul]
  congr 1
  rw [pulse u j (Z := resp A B fun j => if j = 1 then w else 0) (c := fun j => if j = 1 then w else 0) rfl fun k _ => resp_eq hd _ k, Finset.sum_eq_single j]
  · rw [show j + 1 - j = 1 by omega, if_pos rfl]
  · intro i hi hne
    have := Finset.mem_range.1 hi
    rw [if_neg (by omega), dotProduct_zero]
  · intro h
    exact absurd (Finset.mem_range.2 (Nat.lt_succ_self j)) h

/-! ### The points of a transient analysis -/

omit [LinearOrder K] [IsStrictOrderedRing K] in
theorem euler_formula (ctl : Bool) (iter : Nat) (e : Entry K m) (b : List (Entry K m)) (h : K) :
    ∃ f, formula .euler ctl iter (e :: b) h = .ok f ∧ f.c1 = 1 / h ∧ ∀ y, f.c1 • y + f.c0 = (1 / h) • (y - e.x) := by
  have key : ∀ p (b : List (Entry K m)), ∃ f, eulerDf (e :: b) h p = .ok f ∧ f.c1 = 1 / h ∧ ∀ y, f.c1 • y + f.c0 = (1 / h) • (y - e.x) := by
    intro p b
    refine ⟨_, by rw [eulerDf, if_neg (by simp)], rfl, fun y => ?_⟩
    funext i
    simp only [DF.implicitEuler, xAt, Pi.add_apply, Pi.smul_apply, Pi.sub_apply, smul_eq_mul, List.getElem?_cons_zero, Option.map_some,
      Option.getD_some]
    ring
  unfold formula
  split
  · exact key _ _
  · exact key _ _

/-- points at distance `h` that satisfy the equations of the net with the difference quotient for the derivative -/
def Chain (n : Net K m) (h : K) : K → (Fin m → K) → List (Entry K m) → Prop
  | _, _, [] => True
  | t, y, e :: r => e.t = t + h ∧
      (n.mna + (1 / h) • n.D + gminMat n.nn n.gmin) *ᵥ e.x + (n.N + n.Tt (t + h)) = ((1 / h) • n.D) *ᵥ y ∧ Chain n h (t + h) e.x r

theorem go {c : Cfg K} (hm : c.meth = .euler) (hlen : 0 < c.len) (ho : Plain c.o) (hstd : c.o.meth.std = true) {n : Net K m}
    (hl : n.nonlinear = false) (hk : n.locked = []) {h : K} (hd : (n.mna + (1 / h) • n.D + gminMat n.nn n.gmin).det ≠ 0) (x0 : Fin m → K)
    (N : Nat) (s : St K m) (e : Entry K m) (b : List (Entry K m)) (hb : s.buf = e :: b) (hs : s.tstep = h) :
    ∃ s' ps, run c n x0 (List.replicate N (.keep h)) s = .running s' ∧ s'.points = s.points ++ ps ∧ ps.length = N ∧
      Chain n h s.time e.x ps := by
  induction N generalizing s e b with
  | zero => exact ⟨s, [], rfl, by simp, rfl, trivial⟩
  | succ N ih =>
    obtain ⟨f, hf, h1, h2⟩ := euler_formula c.control s.iter e b h
    obtain ⟨z, hz, hz2⟩ := dcSolve_regular (c := n.at f (s.time + h)) ho hstd ⟨hl, hk⟩ n.gmin (by simpa [Net.at, h1] using hd)
      (some (startX c x0 s f)) 63
    obtain ⟨k, hk'⟩ : ∃ k, c.len = k + 1 := ⟨c.len - 1, by omega⟩
    have hp : pass c n x0 s (.keep h) = .running
        { time := s.time + h, tstep := h, iter := s.iter + 1, x := some z
          buf := ((⟨s.time + h, z, some (f.c1 • z + f.c0)⟩ : Entry K m) :: s.buf).take c.len
          points := s.points ++ [⟨s.time + h, z, some (f.c1 • z + f.c0)⟩] } := by
      unfold pass
      rw [hm, hb, hs, hf]
      simp only
      rw [hz]
    obtain ⟨s', ps, r1, r2, r3, r4⟩ := ih
      { time := s.time + h, tstep := h, iter := s.iter + 1, x := some z
        buf := ((⟨s.time + h, z, some (f.c1 • z + f.c0)⟩ : Entry K m) :: s.buf).take c.len
        points := s.points ++ [⟨s.time + h, z, some (f.c1 • z + f.c0)⟩] } ⟨s.time + h, z, some (f.c1 • z + f.c0)⟩ (s.buf.take k)
      (by rw [hk']; rfl) rfl
    refine ⟨s', ⟨s.time + h, z, some (f.c1 • z + f.c0)⟩ :: ps, ?_, ?_, by simp [r3], rfl, ?_, r4⟩
    · rw [List.replicate_succ, run, hp]
      exact r1
    · rw [r2]
      simp
    · have e0 : n.D *ᵥ f.c0 = -(((1 / h) • n.D) *ᵥ e.x) := by
        have := h2 0
        rw [smul_zero, zero_add, zero_sub, smul_neg] at this
        rw [this, mulVec_neg, mulVec_smul, smul_mulVec]
      simp only [Net.at, h1] at hz2
      rw [e0, ← add_assoc, ← sub_eq_add_neg, sub_eq_zero] at hz2
      exact hz2

/-- the vectors of a transient, that of the start first -/
def vecs (y : Fin m → K) (ps : List (Entry K m)) (k : Nat) : Fin m → K := ((y :: ps.map (·.x))[k]?).getD 0

omit [LinearOrder K] [IsStrictOrderedRing K] in
theorem chain_eq {n : Net K m} {h : K} : ∀ {ps : List (Entry K m)} {t : K} {y : Fin m → K}, Chain n h t y ps → ∀ k < ps.length,
    (ps[k]?.map (·.t)) = some (t + (k + 1 : Nat) * h) ∧
    (n.mna + (1 / h) • n.D + gminMat n.nn n.gmin) *ᵥ vecs y ps (k + 1) + (n.N + n.Tt (t + (k + 1 : Nat) * h)) =
      ((1 / h) • n.D) *ᵥ vecs y ps k
  | [], _, _, _, k, hk => by simp at hk
  | e :: r, t, y, ⟨h1, h2, h3⟩, 0, _ => by simpa [vecs, h1] using h2
  | e :: r, t, y, ⟨h1, h2, h3⟩, k + 1, hk => by
    have := chain_eq h3 k (by simpa using hk)
    have e1 : t + h + ((k + 1 : Nat) : K) * h = t + ((k + 1 + 1 : Nat) : K) * h := by push_cast; ring
    rw [e1] at this
    refine ⟨by simpa using this.1, ?_⟩
    simpa [vecs] using this.2

/-! ### Circuits -/

omit [LinearOrder K] [IsStrictOrderedRing K] in
/-- the sources at a time, weighed with a response -/
theorem drive_tt {nv : Nat} {circ : List (Elem K)} {s : Sys K} {T : Vec K} {t : K} (hnv : 0 < nv) (he : ∀ e ∈ circ, NodesLt nv e)
    (hp : ∀ e ∈ circ, TwoPole e) (h : generate circ nv = .ok s) (hT : genTt circ nv (some t) = .ok T) (x : Vec K) (hx : x 0 = 0) :
    ∑ r ∈ Finset.range s.size, x r * (s.N r + T r) = drive (srcVal (some t)) circ nv x := by
  have hz := (rows_linear he hp h x).1
  obtain ⟨p1, p2⟩ := recip_static hp
  have z0 : ∀ r, Mna.mulVec s.size s.M (fun _ => 0) r = 0 := fun r => by simp [Mna.mulVec]
  rw [hz, ← drive_of hnv he (srcVal (some t)) (fun r => if r = 0 then (circ.map fun e => match e with
      | .I _ n1 n2 s => inj n1 n2 (srcVal (some t) s) 0
      | _ => 0).sum else s.N r + T r) x (fun r hr => ?_) fun k e hk => ?_]
  · refine Finset.sum_congr rfl fun r _ => ?_
    by_cases h0 : r = 0
    · subst h0
      rw [hx, zero_mul, zero_mul]
    · rw [if_neg h0]
  · by_cases h0 : r = 0
    · subst h0
      exact if_pos rfl
    · have := C70_node_equations he p1 h hT (fun _ => 0) r (by omega) hr
      rw [z0, zero_add, kcl_const _ _ _ _ hp] at this
      rw [if_neg h0, this]
  · have := C70_branch_equations hnv he p1 p2 h hT (fun _ => 0) k e hk
    rw [z0, zero_add] at this
    rw [if_neg (by omega), this]
    have hin : e ∈ circ := (List.mem_filter.1 (List.mem_of_getElem? hk)).1
    have h1 := hp e hin
    cases e <;> simp only [TwoPole] at h1 <;> simp [law]

omit [LinearOrder K] [IsStrictOrderedRing K] in
/-- circuits that differ in their sources only have the same matrices -/
theorem same_matrices {nv m : Nat} {A B : List (Elem K)} {sA sB : Sys K} {DA DB : Mat K} {cmin : K} (hnv : 0 < nv)
    (hs : A.filterMap bare = B.filterMap bare) (heA : ∀ e ∈ A, NodesLt nv e) (heB : ∀ e ∈ B, NodesLt nv e)
    (hpA : ∀ e ∈ A, TwoPole e) (hpB : ∀ e ∈ B, TwoPole e) (hA : generate A nv = .ok sA) (hB : generate B nv = .ok sB)
    (hm : sA.size = m + 1) (hdA : generateD A nv (m + 1) cmin = .ok DA) (hdB : generateD B nv (m + 1) cmin = .ok DB) :
    sB.size = m + 1 ∧ reduce m sB.M = reduce m sA.M ∧ reduce m DB = reduce m DA := by
  have zA := (rows_linear heA hpA hA fun _ => 0).1
  have zB := (rows_linear heB hpB hB fun _ => 0).1
  have hl := (forms_bare hs nv (fun _ => 0) fun _ => 0).2.2.2.2
  have hmB : sB.size = m + 1 := by rw [zB, ← hl, ← zA, hm]
  have pick : ∀ (M : Mat K) (i j : Fin m), ∑ r ∈ Finset.range (m + 1), Rlc.ext (Pi.single i (1 : K)) r *
      Mna.mulVec (m + 1) M (Rlc.ext (Pi.single j (1 : K))) r = reduce m M i j := by
    intro M i j
    rw [← dot_reduce (Pi.single i 1) (Matrix.mulVec (reduce m M) (Pi.single j 1)) _ fun k => ?_]
    · simp
    · rw [reduce_row]
  refine ⟨hmB, ?_, ?_⟩ <;> ext i j <;> rw [← pick, ← pick]
  · obtain ⟨f1, f2, -⟩ := forms_bare hs nv (Rlc.ext (Pi.single i (1 : K))) (Rlc.ext (Pi.single j (1 : K)))
    have q1 := static_bil hnv heA hpA hA (Rlc.ext (Pi.single i (1 : K))) (Rlc.ext (Pi.single j (1 : K)))
    have q2 := static_bil hnv heB hpB hB (Rlc.ext (Pi.single i (1 : K))) (Rlc.ext (Pi.single j (1 : K)))
    rw [hm] at q1
    rw [hmB] at q2
    rw [q1, q2, f1, f2]
  · obtain ⟨-, -, f3, f4, -⟩ := forms_bare hs nv (Rlc.ext (Pi.single i (1 : K))) (Rlc.ext (Pi.single j (1 : K)))
    have lA : m + 1 = nv + (vdes A).length := by rw [← hm, zA]
    have lB : m + 1 = nv + (vdes B).length := by rw [← hmB, zB]
    have q1 := dynamic_bil hnv heA hpA (by rw [← lA]; exact hdA) (Rlc.ext (Pi.single i (1 : K))) (Rlc.ext (Pi.single j (1 : K))) rfl rfl
    have q2 := dynamic_bil hnv heB hpB (by rw [← lB]; exact hdB) (Rlc.ext (Pi.single i (1 : K))) (Rlc.ext (Pi.single j (1 : K))) rfl rfl
    rw [← lA] at q1
    rw [← lB] at q2
    rw [q1, q2, f3, f4]

/-- two transients of circuits that differ in their sources only: what both theorems assume -/
structure Pair (sqrt : K → Option K) (c : Cfg K) (nv m : Nat) (A B : List (Elem K)) (sA sB : Sys K) (DA DB : Mat K) (TA TB : K → Vec K)
    (cmin gmin h : K) : Prop where
  method : c.meth = .euler
  len : 0 < c.len
  plain : Op.Plain c.o
  std : c.o.meth.std = true
  pos : 0 < nv
  built : Built sqrt A
  same : A.filterMap bare = B.filterMap bare
  nodesA : ∀ e ∈ A, NodesLt nv e
  nodesB : ∀ e ∈ B, NodesLt nv e
  polesA : ∀ e ∈ A, TwoPole e
  polesB : ∀ e ∈ B, TwoPole e
  genA : generate A nv = .ok sA
  genB : generate B nv = .ok sB
  size : sA.size = m + 1
  dynA : generateD A nv (m + 1) cmin = .ok DA
  dynB : generateD B nv (m + 1) cmin = .ok DB
  srcA : ∀ t, genTt A nv (some t) = .ok (TA t)
  srcB : ∀ t, genTt B nv (some t) = .ok (TB t)
  det : (reduce m sA.M + (1 / h) • reduce m DA + gminMat (nv - 1) gmin).det ≠ 0

/-- the net of a circuit with its time dependent sources -/
def net (m : Nat) (s : Sys K) (D : Mat K) (nv : Nat) (gmin : K) (T : K → Vec K) : Net K m := netT m s D nv gmin fun t => reduceV m (T t)

variable {sqrt : K → Option K} {c : Cfg K} {nv : Nat} {A B : List (Elem K)} {sA sB : Sys K} {DA DB : Mat K} {TA TB : K → Vec K}
  {cmin gmin h : K}

/-- the points of both analyses -/
theorem both (P : Pair sqrt c nv m A B sA sB DA DB TA TB cmin gmin h) (t0 : K) (N : Nat) :
    ∃ s1 s2, run c (net m sA DA nv gmin TA) 0 (List.replicate N (.keep h)) (start c t0 h 0) = .running s1 ∧
      run c (net m sB DB nv gmin TB) 0 (List.replicate N (.keep h)) (start c t0 h 0) = .running s2 ∧
      s1.points.length = N ∧ s2.points.length = N ∧
      Chain (net m sA DA nv gmin TA) h t0 0 s1.points ∧ Chain (net m sB DB nv gmin TB) h t0 0 s2.points := by
  obtain ⟨-, q1, q2⟩ := same_matrices P.pos P.same P.nodesA P.nodesB P.polesA P.polesB P.genA P.genB P.size P.dynA P.dynB
  obtain ⟨k, hk⟩ : ∃ k, c.len = k + 1 := ⟨c.len - 1, by have := P.len; omega⟩
  have b : (start c t0 h (0 : Fin m → K)).buf = ⟨t0, 0, none⟩ :: [] := by simp [start, hk]
  obtain ⟨s1, p1, a1, a2, a3, a4⟩ := go P.method P.len P.plain P.std (n := net m sA DA nv gmin TA) rfl rfl (h := h) P.det 0 N
    (start c t0 h 0) _ _ b rfl
  obtain ⟨s2, p2, b1, b2, b3, b4⟩ := go P.method P.len P.plain P.std (n := net m sB DB nv gmin TB) rfl rfl (h := h)
    (by
      show (reduce m sB.M + (1 / h) • reduce m DB + gminMat (nv - 1) gmin).det ≠ 0
      rw [q1, q2]
      exact P.det) 0 N (start c t0 h 0) _ _ b rfl
  have e1 : s1.points = p1 := by rw [a2]; rfl
  have e2 : s2.points = p2 := by rw [b2]; rfl
  exact ⟨s1, s2, a1, b1, by rw [e1, a3], by rw [e2, b3], by rw [e1]; exact a4, by rw [e2]; exact b4⟩

omit [LinearOrder K] [IsStrictOrderedRing K] in
/-- the matrices of a step are symmetric -/
theorem step_symm (P : Pair sqrt c nv m A B sA sB DA DB TA TB cmin gmin h) :
    (reduce m sA.M + (1 / h) • reduce m DA + gminMat (nv - 1) gmin).transpose =
      reduce m sA.M + (1 / h) • reduce m DA + gminMat (nv - 1) gmin ∧
    ((1 / h) • reduce m DA).transpose = (1 / h) • reduce m DA := by
  obtain ⟨y1, y2⟩ := symmetric P.pos P.built P.nodesA P.polesA P.genA P.size (cmin := cmin) (D := DA)
    (by rw [C08_ac_same, P.size]; exact P.dynA)
  constructor
  · rw [Matrix.transpose_add, Matrix.transpose_add, Matrix.transpose_smul, y1, y2, gminMat, Matrix.diagonal_transpose]
  · rw [Matrix.transpose_smul, y2]

omit [LinearOrder K] [IsStrictOrderedRing K] in
/-- the sources at a time as a vector -/
theorem weigh {circ : List (Elem K)} {s : Sys K} {T : K → Vec K} (hnv : 0 < nv) (he : ∀ e ∈ circ, NodesLt nv e)
    (hp : ∀ e ∈ circ, TwoPole e) (hg : generate circ nv = .ok s) (hm : s.size = m + 1) (hT : ∀ t, genTt circ nv (some t) = .ok (T t))
    (t : K) (x : Fin m → K) : x ⬝ᵥ (reduceV m s.N + reduceV m (T t)) = drive (srcVal (some t)) circ nv (Rlc.ext x) := by
  rw [← drive_tt hnv he hp hg (hT t) _ rfl, hm]
  exact dot_reduce x _ (fun r => s.N r + T t r) fun i => rfl

/-- C218: two transients of circuits that differ in their sources only, with implicit Euler and a fixed step, from a state without
energy: the response of the first weighed with the sources of the second in reversed order is that of the second weighed with the
sources of the first. -/
theorem C218_convolution (P : Pair sqrt c nv m A B sA sB DA DB TA TB cmin gmin h) (t0 : K) (N : Nat) :
    ∃ s1 s2, run c (net m sA DA nv gmin TA) 0 (List.replicate N (.keep h)) (start c t0 h 0) = .running s1 ∧
      run c (net m sB DB nv gmin TB) 0 (List.replicate N (.keep h)) (start c t0 h 0) = .running s2 ∧
      s1.points.length = N ∧ s2.points.length = N ∧
      ∑ k ∈ Finset.range N, drive (srcVal (some (t0 + (N - k : Nat) * h))) B nv (Rlc.ext (((s1.points[k]?).map (·.x)).getD 0)) =
        ∑ k ∈ Finset.range N, drive (srcVal (some (t0 + (N - k : Nat) * h))) A nv (Rlc.ext (((s2.points[k]?).map (·.x)).getD 0)) := by
  obtain ⟨hmB, q1, q2⟩ := same_matrices P.pos P.same P.nodesA P.nodesB P.polesA P.polesB P.genA P.genB P.size P.dynA P.dynB
  obtain ⟨s1, s2, r1, r2, l1, l2, c1, c2⟩ := both P t0 N
  refine ⟨s1, s2, r1, r2, l1, l2, ?_⟩
  obtain ⟨y1, y2⟩ := step_symm P
  have key := conv y1 y2 (X := vecs 0 s1.points) (Y := vecs 0 s2.points)
    (b := fun k => reduceV m sA.N + reduceV m (TA (t0 + k * h))) (c := fun k => reduceV m sB.N + reduceV m (TB (t0 + k * h))) (N := N)
    rfl rfl (fun k hk => (chain_eq c1 k (by omega)).2) (fun k hk => by
      have := (chain_eq c2 k (by omega)).2
      simp only [net, netT, netOf, q1, q2] at this
      exact this)
  simp only [weigh P.pos P.nodesA P.polesA P.genA P.size P.srcA, weigh P.pos P.nodesB P.polesB P.genB hmB P.srcB] at key
  simpa [vecs] using key

/-- the same wave form at two places -/
theorem waves (P : Pair sqrt c nv m A B sA sB DA DB TA TB cmin gmin h) (t0 : K) (N : Nat) {f : K → K} {u w : Fin m → K}
    (hA : ∀ t (x : Fin m → K), drive (srcVal (some t)) A nv (Rlc.ext x) = f t * (x ⬝ᵥ u))
    (hB : ∀ t (x : Fin m → K), drive (srcVal (some t)) B nv (Rlc.ext x) = f t * (x ⬝ᵥ w)) :
    ∃ s1 s2, run c (net m sA DA nv gmin TA) 0 (List.replicate N (.keep h)) (start c t0 h 0) = .running s1 ∧
      run c (net m sB DB nv gmin TB) 0 (List.replicate N (.keep h)) (start c t0 h 0) = .running s2 ∧
      s1.points.length = N ∧ s2.points.length = N ∧ ∀ k e1 e2, s1.points[k]? = some e1 → s2.points[k]? = some e2 →
        e1.t = t0 + (k + 1 : Nat) * h ∧ e2.t = e1.t ∧ e1.x ⬝ᵥ w = e2.x ⬝ᵥ u := by
  obtain ⟨hmB, q1, q2⟩ := same_matrices P.pos P.same P.nodesA P.nodesB P.polesA P.polesB P.genA P.genB P.size P.dynA P.dynB
  obtain ⟨s1, s2, r1, r2, l1, l2, c1, c2⟩ := both P t0 N
  refine ⟨s1, s2, r1, r2, l1, l2, fun k e1 e2 h1 h2 => ?_⟩
  obtain ⟨y1, y2⟩ := step_symm P
  have vec : ∀ {b v : Fin m → K} {a : K}, (∀ x : Fin m → K, x ⬝ᵥ b = a * (x ⬝ᵥ v)) → b = a • v := by
    intro b v a hx
    funext i
    have := hx (Pi.single i 1)
    simpa using this
  have bA : ∀ t, reduceV m sA.N + reduceV m (TA t) = f t • u := fun t =>
    vec fun x => by rw [weigh P.pos P.nodesA P.polesA P.genA P.size P.srcA, hA]
  have bB : ∀ t, reduceV m sB.N + reduceV m (TB t) = f t • w := fun t =>
    vec fun x => by rw [weigh P.pos P.nodesB P.polesB P.genB hmB P.srcB, hB]
  have k1 : k < s1.points.length := (List.getElem?_eq_some_iff.1 h1).1
  have t1 := (chain_eq c1 k k1).1
  have t2 := (chain_eq c2 k (by omega)).1
  rw [h1] at t1
  rw [h2] at t2
  simp only [Option.map_some, Option.some.injEq] at t1 t2
  refine ⟨t1, by rw [t1, t2], ?_⟩
  have key := wave y1 y2 P.det (X := vecs 0 s1.points) (Y := vecs 0 s2.points) (u := u) (w := w) (f := fun k => f (t0 + k * h)) (N := N)
    rfl rfl (fun k hk => by rw [← bA]; exact (chain_eq c1 k (by omega)).2) (fun k hk => by
      have := (chain_eq c2 k (by omega)).2
      simp only [net, netT, netOf, q1, q2] at this
      rw [← bB]
      exact this) (k + 1) (by omega)
  simpa [vecs, h1, h2] using key

/-- a source without value, and anything that is not a source -/
def Silent : Elem K → Prop
  | .V _ _ _ s | .I _ _ _ s => ∀ t, srcVal (some t) s = 0
  | _ => True

omit [LinearOrder K] [IsStrictOrderedRing K] in
theorem drive_silent {circ : List (Elem K)} (hq : ∀ e ∈ circ, Silent e) (nv : Nat) (t : K) (x : Vec K) (l : List (Elem K)) :
    drive (srcVal (some t)) (circ ++ l) nv x =
      (l.map (srcNode (srcVal (some t)) x)).sum - brSum (srcBranch (srcVal (some t)) nv x) l (vdes circ).length := by
  have h1 : (circ.map (srcNode (srcVal (some t)) x)).sum = 0 := by
    refine List.sum_eq_zero fun v hv => ?_
    obtain ⟨e, he, rfl⟩ := List.mem_map.1 hv
    have := hq e he
    cases e <;> simp only [srcNode]
    simp only [Silent] at this
    simp [this]
  have h2 : brSum (srcBranch (srcVal (some t)) nv x) circ 0 = 0 := by
    rw [brSum_map _ (fun _ => 0) _ _ (fun j e hj => ?_) (fun _ _ _ => rfl)]
    · simp
    · have := hq e (List.mem_filter.1 (List.mem_of_getElem? hj)).1
      cases e <;> simp only [srcBranch]
      simp only [Silent] at this
      simp [this]
  rw [drive, brSum_append, h2, List.map_append, List.sum_append, h1, zero_add, zero_add, Nat.zero_add]

/-- the row of an unknown -/
def unit (m r : Nat) : Fin m → K := fun i => if i.val + 1 = r then 1 else 0

omit [LinearOrder K] [IsStrictOrderedRing K] in
theorem dot_unit (x : Fin m → K) (r : Nat) : x ⬝ᵥ unit m r = Rlc.ext x r := by
  unfold dotProduct unit
  obtain _ | r := r
  · simp [Rlc.ext]
  · by_cases hr : r < m
    · rw [Finset.sum_eq_single ⟨r, hr⟩]
      · simp [Rlc.ext, hr]
      · intro i _ hi
        rw [if_neg fun e => hi (Fin.ext (by simpa using e)), mul_zero]
      · simp
    · rw [Finset.sum_eq_zero fun i _ => by rw [if_neg (by have := i.isLt; omega), mul_zero]]
      simp [Rlc.ext, hr]

/-- C218: a current source between `a` and `b` causes the same voltage between `p` and `q`, at every point of the transient, as a
current source with the same wave form between `p` and `q` causes between `a` and `b`. -/
theorem C218_transfer_impedance {circ : List (Elem K)} {ida idb : String} {a b p q : Nat} {u w : Src K}
    (P : Pair sqrt c nv m (circ ++ [.I ida a b u]) (circ ++ [.I idb p q w]) sA sB DA DB TA TB cmin gmin h)
    (hq : ∀ e ∈ circ, Silent e) (hf : ∀ t, srcVal (some t) u = srcVal (some t) w) (t0 : K) (N : Nat) :
    ∃ s1 s2, run c (net m sA DA nv gmin TA) 0 (List.replicate N (.keep h)) (start c t0 h 0) = .running s1 ∧
      run c (net m sB DB nv gmin TB) 0 (List.replicate N (.keep h)) (start c t0 h 0) = .running s2 ∧
      s1.points.length = N ∧ s2.points.length = N ∧ ∀ k e1 e2, s1.points[k]? = some e1 → s2.points[k]? = some e2 →
        e1.t = t0 + (k + 1 : Nat) * h ∧ e2.t = e1.t ∧ Rlc.ext e1.x p - Rlc.ext e1.x q = Rlc.ext e2.x a - Rlc.ext e2.x b := by
  have key := waves P t0 N (f := fun t => srcVal (some t) u) (u := unit m a - unit m b) (w := unit m p - unit m q)
    (fun t x => ?_) fun t x => ?_
  · simpa only [dotProduct_sub, dot_unit] using key
  · rw [drive_silent hq, dotProduct_sub, dot_unit, dot_unit]
    simp [srcNode, brSum, Elem.vde]
  · rw [drive_silent hq, dotProduct_sub, dot_unit, dot_unit, hf]
    simp [srcNode, brSum, Elem.vde]

/-- C218: with voltage sources at two ports, a voltage at the first causes the same current in the source of the second, at every
point of the transient, as the same voltage at the second causes in the source of the first. -/
theorem C218_transfer_admittance {circ : List (Elem K)} {ida idb : String} {a b p q : Nat} {u w : Src K} {z z' : Src K}
    (P : Pair sqrt c nv m (circ ++ [.V ida a b u, .V idb p q z]) (circ ++ [.V ida a b z', .V idb p q w]) sA sB DA DB TA TB cmin gmin h)
    (hq : ∀ e ∈ circ, Silent e) (hf : ∀ t, srcVal (some t) u = srcVal (some t) w) (hz : ∀ t, srcVal (some t) z = 0)
    (hz' : ∀ t, srcVal (some t) z' = 0) (t0 : K) (N : Nat) :
    ∃ s1 s2, run c (net m sA DA nv gmin TA) 0 (List.replicate N (.keep h)) (start c t0 h 0) = .running s1 ∧
      run c (net m sB DB nv gmin TB) 0 (List.replicate N (.keep h)) (start c t0 h 0) = .running s2 ∧
      s1.points.length = N ∧ s2.points.length = N ∧ ∀ k e1 e2, s1.points[k]? = some e1 → s2.points[k]? = some e2 →
        e1.t = t0 + (k + 1 : Nat) * h ∧ e2.t = e1.t ∧
        Rlc.ext e1.x (nv + (vdes circ).length + 1) = Rlc.ext e2.x (nv + (vdes circ).length) := by
  have key := waves P t0 N (f := fun t => srcVal (some t) u) (u := -unit m (nv + (vdes circ).length))
    (w := -unit m (nv + (vdes circ).length + 1)) (fun t x => ?_) fun t x => ?_
  · simpa only [dotProduct_neg, dot_unit, neg_inj] using key
  · rw [drive_silent hq, dotProduct_neg, dot_unit]
    simp [srcNode, srcBranch, brSum, Elem.vde, hz]
  · rw [drive_silent hq, dotProduct_neg, dot_unit, hf]
    simp [srcNode, srcBranch, brSum, Elem.vde, hz', Nat.add_assoc]

/-! ### Examples -/

/-- a filter, driven from the left and from the right -/
def filter : List (Elem ℚ) := [.R "R1" 1 0 1, .C "C1" 1 2 2 none, .L "L1" 2 0 3 none []]
def wav : Src ℚ := { timeDep := true, fn := some fun t => (t.getD 0) * (t.getD 0) }
def left : List (Elem ℚ) := filter ++ [.I "I1" 1 0 wav]
def right : List (Elem ℚ) := filter ++ [.I "I2" 2 0 wav]
def sysQ (circ : List (Elem ℚ)) (nv : Nat) : Sys ℚ := okOr ⟨0, fun _ _ => 0, fun _ => 0⟩ (generate circ nv)
def dynQ (circ : List (Elem ℚ)) (nv S : Nat) : Mat ℚ := okOr (fun _ _ => 0) (generateD circ nv S 0)
def ttQ (circ : List (Elem ℚ)) (nv : Nat) (t : ℚ) : Vec ℚ := okOr (fun _ => 0) (genTt circ nv (some t))

/-- hypotheses of `C218_convolution` and `C218_transfer_impedance` -/
example (c : Cfg ℚ) (h1 : c.meth = .euler) (h2 : 0 < c.len) (h3 : Op.Plain c.o) (h4 : c.o.meth.std = true) :
    Pair (fun _ => none) c 3 3 left right (sysQ left 3) (sysQ right 3) (dynQ left 3 4) (dynQ right 3 4) (ttQ left 3) (ttQ right 3) 0
      (1 / 1000) (1 / 2) ∧ (∀ e ∈ filter, Silent e) where
  left := {
    method := h1
    len := h2
    plain := h3
    std := h4
    pos := by decide
    built := .add (.add (.add (.add .nil (by simp) (by simp) (by simp [Elem.vde])) (by simp) (by simp) (by simp [Elem.vde])) (by simp)
      (by simp) (by simp [Elem.vde])) (by simp) (by simp) (by simp [Elem.vde])
    same := rfl
    nodesA := by simp [left, filter, NodesLt]
    nodesB := by simp [right, filter, NodesLt]
    polesA := by simp [left, filter, TwoPole]
    polesB := by simp [right, filter, TwoPole]
    genA := rfl
    genB := rfl
    size := rfl
    dynA := rfl
    dynB := rfl
    srcA := fun _ => rfl
    srcB := fun _ => rfl
    det := by simp only [Matrix.det_fin_three]; decide +kernel }
  right := by simp [filter, Silent]

/-- both circuits have sources that are not zero: the wave form is `t²` -/
example : srcVal (some 3) wav = 9 := by decide +kernel

end Verif.TranRecip
