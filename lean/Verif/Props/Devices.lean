import Verif.Model.Devices
import Verif.Props.Bound
import Verif.Props.Stamp
import Verif.Props.Diode

/-!
C145: circuits with diodes have at most one operating point.
C146: the matrix of Newton's method is regular for circuits with diodes.
-/

namespace Verif.Devices
open Verif.Circuit Verif.Mna Verif.Dyn Verif.Rlc Verif.Recip Verif.Stamp

variable {K : Type} [Field K] [LinearOrder K] [IsStrictOrderedRing K]

/-! ### What the loop adds up -/

def devTerm (f : String → Nat → Nat → K) : Elem K → K
  | .NL id n1 n2 _ _ _ => f id n1 n2
  | _ => 0

/-- sum over the devices -/
def devSum (f : String → Nat → Nat → K) (circ : List (Elem K)) : K := (circ.map (devTerm f)).sum

/-- the devices are not shorted -/
def Apart (e : Elem K) : Prop :=
  match e with
  | .NL _ n1 n2 _ _ _ => n1 ≠ n2
  | _ => True

/-- the conductance that is used -/
def used (gmin g : K) : K := if g = 0 then gmin * 2 else g

/-- an entry of the matrix of a conductance -/
def unit (n r : Nat) : K := if r = n then 1 else 0

omit [LinearOrder K] [IsStrictOrderedRing K] in
theorem devSum_cons (f : String → Nat → Nat → K) (e : Elem K) (l : List (Elem K)) :
    devSum f (e :: l) = devTerm f e + devSum f l := by
  simp [devSum]

theorem updateT_spec {m : Nat} (law : String → Law K) (x : Fin m → K) (circ : List (Elem K)) (ha : ∀ e ∈ circ, Apart e)
    (T : ℤ → ℤ → K) : ∃ T', updateT law x circ T = some T' ∧ ∀ r : ℕ, T' r 0 = T r 0 +
      devSum (fun id n1 n2 => inj n1 n2 ((law id).i (portV x n1 n2)) (r + 1)) circ := by
  induction circ generalizing T with
  | nil => exact ⟨T, rfl, by simp [devSum]⟩
  | cons e t ih =>
    have ht := fun e' h' => ha e' (List.mem_cons_of_mem _ h')
    have h1 := ha e (List.mem_cons_self ..)
    cases e with
    | NL id n1 n2 s p o =>
      obtain ⟨T1, e1, h2⟩ := C45_current_partial T n1 n2 ((law id).i (portV x n1 n2)) h1
      obtain ⟨T2, e2, h3⟩ := ih ht T1
      refine ⟨T2, by rw [updateT, e1]; exact e2, fun r => ?_⟩
      rw [h3, h2, devSum_cons]
      simp only [devTerm, inj, eq_comm (a := r + 1)]
      ring
    | _ =>
      obtain ⟨T2, e2, h3⟩ := ih ht T
      refine ⟨T2, e2, fun r => ?_⟩
      rw [h3, devSum_cons]
      simp [devTerm]

theorem updateJ_spec {m : Nat} (gmin : K) (law : String → Law K) (x : Fin m → K) (circ : List (Elem K))
    (ha : ∀ e ∈ circ, Apart e) (J : ℤ → ℤ → K) : ∃ J', updateJ gmin law x circ J = some J' ∧ ∀ r c : ℕ, J' r c = J r c +
      devSum (fun id n1 n2 => used gmin ((law id).gm (portV x n1 n2)) *
        (unit n1 (r + 1) - unit n2 (r + 1)) * (unit n1 (c + 1) - unit n2 (c + 1))) circ := by
  induction circ generalizing J with
  | nil => exact ⟨J, rfl, by simp [devSum]⟩
  | cons e t ih =>
    have ht := fun e' h' => ha e' (List.mem_cons_of_mem _ h')
    have h1 := ha e (List.mem_cons_self ..)
    cases e with
    | NL id n1 n2 s p o =>
      obtain ⟨J1, e1, h2, -⟩ := C45_folded J [n1, n2] (diodeStamp gmin ((law id).gm (portV x n1 n2))) rfl
        (by intro row hrow
            simp only [diodeStamp, List.mem_cons, List.not_mem_nil, or_false] at hrow
            rcases hrow with h | h <;> subst h <;> rfl)
        (by
          by_cases h0 : n1 = 0
          · exact ⟨n2, by simp, fun h => h1 (h0.trans h.symm)⟩
          · exact ⟨n1, by simp, h0⟩)
      obtain ⟨J2, e2, h3⟩ := ih ht J1
      refine ⟨J2, by rw [updateJ, e1]; exact e2, fun r c => ?_⟩
      rw [h3, h2, devSum_cons]
      simp only [fullEntry, diodeStamp, List.zip_cons_cons, List.zip_nil_left, List.map_cons, List.map_nil,
        List.sum_cons, List.sum_nil, used, unit, eq_comm (a := r + 1), eq_comm (a := c + 1)]
      simp only [ite_and, devTerm]
      generalize (if (law id).gm (portV x n1 n2) = 0 then gmin * 2 else (law id).gm (portV x n1 n2)) = g
      split_ifs <;> ring
    | _ =>
      obtain ⟨J2, e2, h3⟩ := ih ht J
      refine ⟨J2, e2, fun r c => ?_⟩
      rw [h3, devSum_cons]
      simp [devTerm]

theorem portV_eq {m : Nat} (x : Fin m → K) {n1 n2 : Nat} : portV x n1 n2 = Rlc.ext x n1 - Rlc.ext x n2 := by
  unfold portV
  cases n1 <;> cases n2 <;> simp [Rlc.ext]

/-- the currents of the devices at node `r` -/
def currents {m : Nat} (law : String → Law K) (circ : List (Elem K)) (x : Fin m → K) (r : Nat) : K :=
  devSum (fun id n1 n2 => inj n1 n2 ((law id).i (Rlc.ext x n1 - Rlc.ext x n2)) r) circ

theorem vecT_eq {m : Nat} (law : String → Law K) {circ : List (Elem K)} (ha : ∀ e ∈ circ, Apart e) (x : Fin m → K)
    (i : Fin m) : vecT law circ x i = currents law circ x (i.val + 1) := by
  obtain ⟨T, h1, h2⟩ := updateT_spec law x circ ha fun _ _ => 0
  rw [vecT, h1, Option.getD_some, h2, zero_add, currents]
  simp only [portV_eq]

theorem devSum_congr {f g : String → Nat → Nat → K} (circ : List (Elem K))
    (h : ∀ id n1 n2 s p o, Elem.NL id n1 n2 s p o ∈ circ → f id n1 n2 = g id n1 n2) : devSum f circ = devSum g circ := by
  induction circ with
  | nil => rfl
  | cons e t ih =>
    rw [devSum_cons, devSum_cons, ih fun id a b s p o hm => h id a b s p o (List.mem_cons_of_mem _ hm)]
    cases e with
    | NL id n1 n2 s p o => simp only [devTerm, h id n1 n2 s p o (List.mem_cons_self ..)]
    | _ => rfl

omit [LinearOrder K] [IsStrictOrderedRing K] in
theorem devSum_none (circ : List (Elem K)) : devSum (fun _ _ _ => (0 : K)) circ = 0 :=
  List.sum_eq_zero fun v hv => by
    obtain ⟨e, _, rfl⟩ := List.mem_map.1 hv
    cases e <;> rfl

theorem sum_devSum (F : Finset Nat) (f : Nat → String → Nat → Nat → K) (circ : List (Elem K)) :
    ∑ r ∈ F, devSum (f r) circ = devSum (fun id n1 n2 => ∑ r ∈ F, f r id n1 n2) circ := by
  induction circ with
  | nil => simp [devSum]
  | cons e t ih =>
    simp only [devSum_cons, Finset.sum_add_distrib, ih]
    cases e <;> simp [devTerm]

theorem mul_devSum (a : K) (f : String → Nat → Nat → K) (circ : List (Elem K)) :
    a * devSum f circ = devSum (fun id n1 n2 => a * f id n1 n2) circ := by
  induction circ with
  | nil => simp [devSum]
  | cons e t ih =>
    rw [devSum_cons, devSum_cons, mul_add, ih]
    cases e <;> simp [devTerm]

theorem devSum_nonneg {f : String → Nat → Nat → K} (circ : List (Elem K))
    (h : ∀ id n1 n2 s p o, Elem.NL id n1 n2 s p o ∈ circ → 0 ≤ f id n1 n2) : 0 ≤ devSum f circ := by
  refine List.sum_nonneg fun v hv => ?_
  obtain ⟨e, he, rfl⟩ := List.mem_map.1 hv
  cases e with
  | NL id n1 n2 s p o => exact h id n1 n2 s p o he
  | _ => exact le_refl _

theorem devSum_zero {f : String → Nat → Nat → K} (circ : List (Elem K))
    (h : ∀ id n1 n2 s p o, Elem.NL id n1 n2 s p o ∈ circ → 0 ≤ f id n1 n2) (h0 : devSum f circ = 0)
    {id n1 n2 s p o} (hm : Elem.NL id n1 n2 s p o ∈ circ) : f id n1 n2 = 0 := by
  refine List.all_zero_of_le_zero_le_of_sum_eq_zero (l := circ.map (devTerm f)) ?_ h0 (List.mem_map.2 ⟨_, hm, rfl⟩)
  intro v hv
  obtain ⟨e, he, rfl⟩ := List.mem_map.1 hv
  cases e with
  | NL id n1 n2 s p o => exact h id n1 n2 s p o he
  | _ => exact le_refl _

/-! ### The linear part -/

/-- an element that is a two-pole or a device -/
def Part (e : Elem K) : Prop := TwoPole e ∨ e.nonlinear = true

/-- the circuit without its devices -/
def lin (circ : List (Elem K)) : List (Elem K) := circ.filter fun e => !e.nonlinear

omit [Field K] [LinearOrder K] [IsStrictOrderedRing K] in
theorem lin_two {circ : List (Elem K)} (hp : ∀ e ∈ circ, Part e) : ∀ e ∈ lin circ, TwoPole e := by
  intro e he
  obtain ⟨h1, h2⟩ := List.mem_filter.1 he
  rcases hp e h1 with h | h
  · exact h
  · simp [h] at h2

omit [Field K] [LinearOrder K] [IsStrictOrderedRing K] in
theorem lin_cons (e : Elem K) (t : List (Elem K)) : lin (e :: t) = if e.nonlinear then lin t else e :: lin t := by
  unfold lin
  rw [List.filter_cons]
  cases e.nonlinear <;> simp

omit [LinearOrder K] [IsStrictOrderedRing K] in
theorem loop_filter {σ : Type} (f g : σ → Elem K → Except Err σ) (l : List (Elem K))
    (h : ∀ s, ∀ e ∈ l, e.nonlinear = true → f s e = .ok s)
    (h' : ∀ s, ∀ e ∈ l, e.nonlinear = false → f s e = g s e) (s : σ) : Mna.loop f s l = Mna.loop g s (lin l) := by
  induction l generalizing s with
  | nil => rfl
  | cons e t ih =>
    have i1 := ih (fun s e he => h s e (List.mem_cons_of_mem _ he)) fun s e he => h' s e (List.mem_cons_of_mem _ he)
    rw [lin_cons, Mna.loop]
    cases hn : e.nonlinear with
    | true =>
      rw [h s e (List.mem_cons_self ..) hn, if_pos rfl]
      exact i1 s
    | false =>
      rw [h' s e (List.mem_cons_self ..) hn]
      simp only [Bool.false_eq_true, if_false, Mna.loop]
      cases g s e with
      | ok s' => exact i1 s'
      | error x => rfl

omit [LinearOrder K] [IsStrictOrderedRing K] in
/-- devices leave nothing in the matrix -/
theorem generate_lin {circ : List (Elem K)} (hp : ∀ e ∈ circ, Part e) (nv : Nat) :
    generate circ nv = generate (lin circ) nv := by
  unfold generate
  rw [loop_filter stamp1 stamp1 circ (fun s e _ hn => by cases e <;> simp_all [Elem.nonlinear, stamp1]) fun _ _ _ _ => rfl]
  cases Mna.loop stamp1 ⟨nv, fun _ _ => 0, fun _ => 0⟩ (lin circ) with
  | error x => rfl
  | ok s1 =>
    simp only
    rw [loop_filter (stamp2 circ nv) (stamp2 (lin circ) nv) circ
      (fun s e _ hn => by cases e <;> simp_all [Elem.nonlinear, stamp2]) (fun s e he hn => by
        have := hp e he
        cases e <;> simp_all [Part, TwoPole, Elem.nonlinear, stamp2])]
    cases Mna.loop (stamp2 (lin circ) nv) s1 (lin circ) with
    | error x => rfl
    | ok s2 =>
      simp only
      rw [loop_filter (stamp3 circ nv) (stamp3 (lin circ) nv) circ
        (fun s e _ hn => by cases e <;> simp_all [Elem.nonlinear, stamp3]) (fun s e he hn => by
          have := hp e he
          cases e <;> simp_all [Part, TwoPole, Elem.nonlinear, stamp3])]

/-! ### The balance of power -/

theorem weigh {m nv : Nat} {circ : List (Elem K)} {s : Sys K} {g : K} (hnv : 0 < nv)
    (he : ∀ e ∈ circ, NodesLt nv e) (hp : ∀ e ∈ circ, Part e) (h : generate circ nv = .ok s) (hm : s.size = m + 1)
    {z : Fin m → K} {t : String → Nat → Nat → K}
    (hz : ∀ i : Fin m, (reduce m s.M + Op.gminMat (nv - 1) g).mulVec z i +
      devSum (fun id n1 n2 => inj n1 n2 (t id n1 n2) (i.val + 1)) circ = 0) :
    ((lin circ).map (resForm (Rlc.ext z) (Rlc.ext z))).sum + g * ∑ r ∈ Finset.range nv, Rlc.ext z r * Rlc.ext z r +
      devSum (fun id n1 n2 => (Rlc.ext z n1 - Rlc.ext z n2) * t id n1 n2) circ = 0 := by
  set Z := Rlc.ext z with hZ
  set N : Vec K := fun r => devSum (fun id n1 n2 => inj n1 n2 (t id n1 n2) r) circ with hN
  rw [generate_lin hp] at h
  have hl : ∀ e ∈ lin circ, NodesLt nv e := fun e hm => he e (List.mem_filter.1 hm).1
  have hsz := (rows_linear hl (lin_two hp) h (fun _ => 0)).1
  have hS : Solution nv s.size s.M (fun _ _ => 0) N 0 g Z := by
    rw [hm]
    refine (Bound.solution_iff hnv s.M N g z).1 ?_
    funext i
    exact hz i
  set W : Vec K := fun r => if r < nv then Z r else -Z r with hW
  have wn : ∀ r < nv, W r = Z r := fun r hr => by simp [hW, hr]
  have wb : ∀ j, W (nv + j) = -Z (nv + j) := fun j => by simp [hW]
  have w := solution_weighed (by omega) hS W (by rw [wn 0 hnv]; exact hS.1)
  rw [static_bil hnv hl (lin_two hp) h] at w
  have c0 : brSum (cross nv W Z) (lin circ) 0 = 0 := Bound.brSum_zero _ _ _ fun j e hj => by
    have hin : e ∈ lin circ := (List.mem_filter.1 (List.mem_of_getElem? hj)).1
    have ht := (hl e hin).term_lt' hnv
    rw [Nat.zero_add, cross, wn _ ht.1, wn _ ht.2, wb]
    ring
  have c1 : ((lin circ).map (resForm W Z)).sum = ((lin circ).map (resForm Z Z)).sum := by
    congr 1
    refine List.map_congr_left fun e hin => ?_
    have ht := (hl e hin).term_lt' hnv
    cases e <;> simp only [resForm]
    simp only [term] at ht
    rw [wn _ ht.1, wn _ ht.2]
  have c2 : ∑ r ∈ Finset.range nv, W r * Z r = ∑ r ∈ Finset.range nv, Z r * Z r :=
    Finset.sum_congr rfl fun r hr => by rw [wn r (Finset.mem_range.1 hr)]
  have c3 : ∑ r ∈ Finset.range s.size, W r * N r = devSum (fun id n1 n2 => (Z n1 - Z n2) * t id n1 n2) circ := by
    simp only [hN, mul_devSum]
    rw [sum_devSum]
    refine devSum_congr circ fun id n1 n2 a b c hin => ?_
    have ht := he _ hin
    simp only [NodesLt] at ht
    rw [sum_inj W n1 n2 _ (by omega) (by omega), wn _ ht.1, wn _ ht.2]
  rw [c0, c1, c2, c3, zero_mul, add_zero, add_zero] at w
  exact w

/-- nothing is dissipated if there are no sources -/
theorem no_motion {m nv : Nat} {circ : List (Elem K)} {s : Sys K} {g : K} (hnv : 0 < nv) (hg : 0 ≤ g)
    (he : ∀ e ∈ circ, NodesLt nv e) (hp : ∀ e ∈ circ, Part e) (hpos : ∀ e ∈ circ, Positive e)
    (h : generate circ nv = .ok s) (hm : s.size = m + 1)
    {z : Fin m → K} {t : String → Nat → Nat → K}
    (hz : ∀ i : Fin m, (reduce m s.M + Op.gminMat (nv - 1) g).mulVec z i +
      devSum (fun id n1 n2 => inj n1 n2 (t id n1 n2) (i.val + 1)) circ = 0)
    (ht : ∀ id n1 n2 a b c, Elem.NL id n1 n2 a b c ∈ circ → 0 ≤ (Rlc.ext z n1 - Rlc.ext z n2) * t id n1 n2) :
    (∀ r < nv, g * Rlc.ext z r = 0) ∧
      ∀ id n1 n2 a b c, Elem.NL id n1 n2 a b c ∈ circ → (Rlc.ext z n1 - Rlc.ext z n2) * t id n1 n2 = 0 := by
  have w := weigh hnv he hp h hm hz
  have p1 : 0 ≤ ((lin circ).map (resForm (Rlc.ext z) (Rlc.ext z))).sum := sum_nonneg' _ _ fun e hin => by
    have := hpos e (List.mem_filter.1 hin).1
    cases e <;> simp only [resForm] <;> try exact le_refl _
    simp only [Positive] at this
    exact div_nonneg (mul_self_nonneg _) this.le
  have p2 : 0 ≤ ∑ r ∈ Finset.range nv, Rlc.ext z r * Rlc.ext z r := Finset.sum_nonneg fun r _ => mul_self_nonneg _
  have p3 := devSum_nonneg circ ht
  have p4 := mul_nonneg hg p2
  have z3 : devSum (fun id n1 n2 => (Rlc.ext z n1 - Rlc.ext z n2) * t id n1 n2) circ = 0 := by linarith
  have z2 : g * ∑ r ∈ Finset.range nv, Rlc.ext z r * Rlc.ext z r = 0 := by linarith
  refine ⟨fun r hr => ?_, fun id n1 n2 a b c hin => devSum_zero (f := fun id n1 n2 =>
    (Rlc.ext z n1 - Rlc.ext z n2) * t id n1 n2) circ ht z3 hin⟩
  rcases mul_eq_zero.1 z2 with h0 | h0
  · rw [h0, zero_mul]
  · have := (Finset.sum_eq_zero_iff_of_nonneg fun r _ => mul_self_nonneg _).1 h0 r (Finset.mem_range.2 hr)
    rw [mul_self_eq_zero.1 this, mul_zero]

/-! ### C145 -/

/-- the equations of an operating point of a circuit with devices, loaded with the conductance `g` -/
def IsPoint {m : Nat} (nv : Nat) (g : K) (law : String → Law K) (circ : List (Elem K)) (s : Sys K) (x : Fin m → K) :
    Prop :=
  ∀ i : Fin m, (reduce m s.M + Op.gminMat (nv - 1) g).mulVec x i + s.N (i.val + 1) + vecT law circ x i = 0

theorem devSum_sub (f g : String → Nat → Nat → K) (circ : List (Elem K)) :
    devSum f circ - devSum g circ = devSum (fun id n1 n2 => f id n1 n2 - g id n1 n2) circ := by
  induction circ with
  | nil => simp [devSum]
  | cons e t ih =>
    rw [devSum_cons, devSum_cons, devSum_cons, ← ih]
    cases e <;> simp [devTerm] <;> ring

/-- what the difference of two points satisfies -/
theorem difference {m nv : Nat} {circ : List (Elem K)} {s : Sys K} {g : K} {law : String → Law K}
    (ha : ∀ e ∈ circ, Apart e) {x y : Fin m → K} (hx : IsPoint nv g law circ s x) (hy : IsPoint nv g law circ s y)
    (i : Fin m) : (reduce m s.M + Op.gminMat (nv - 1) g).mulVec (x - y) i +
      devSum (fun id n1 n2 => inj n1 n2 ((law id).i (Rlc.ext x n1 - Rlc.ext x n2) -
        (law id).i (Rlc.ext y n1 - Rlc.ext y n2)) (i.val + 1)) circ = 0 := by
  have h1 := hx i
  have h2 := hy i
  rw [vecT_eq law ha, currents] at h1 h2
  have h3 := devSum_sub (fun id n1 n2 => inj n1 n2 ((law id).i (Rlc.ext x n1 - Rlc.ext x n2)) (i.val + 1))
    (fun id n1 n2 => inj n1 n2 ((law id).i (Rlc.ext y n1 - Rlc.ext y n2)) (i.val + 1)) circ
  have h4 : devSum (fun id n1 n2 => inj n1 n2 ((law id).i (Rlc.ext x n1 - Rlc.ext x n2) -
        (law id).i (Rlc.ext y n1 - Rlc.ext y n2)) (i.val + 1)) circ =
      devSum (fun id n1 n2 => inj n1 n2 ((law id).i (Rlc.ext x n1 - Rlc.ext x n2)) (i.val + 1) -
        inj n1 n2 ((law id).i (Rlc.ext y n1 - Rlc.ext y n2)) (i.val + 1)) circ :=
    devSum_congr circ fun id n1 n2 a b c _ => by simp only [inj]; split_ifs <;> ring
  rw [h4, ← h3, Matrix.mulVec_sub, Pi.sub_apply]
  linear_combination h1 - h2

theorem ext_sub {m : Nat} (x y : Fin m → K) (r : Nat) : Rlc.ext (x - y) r = Rlc.ext x r - Rlc.ext y r := by
  cases r with
  | zero => simp [Rlc.ext]
  | succ r => by_cases h : r < m <;> simp [Rlc.ext, h]

/-- the currents of all devices grow with their voltages -/
def Grow (law : String → Law K) (circ : List (Elem K)) : Prop :=
  ∀ id n1 n2 a b c, Elem.NL id n1 n2 a b c ∈ circ → Monotone (law id).i

omit [IsStrictOrderedRing K] in
theorem mono_mul {f : K → K} (hf : Monotone f) [IsStrictOrderedRing K] (a b : K) : 0 ≤ (a - b) * (f a - f b) := by
  rcases le_total a b with h | h
  · exact mul_nonneg_of_nonpos_of_nonpos (by linarith) (by have := hf h; linarith)
  · exact mul_nonneg (by linarith) (by have := hf h; linarith)

/-- C145: with Gmin, a circuit of positive resistors, capacitors, inductors, independent sources and devices whose
current grows with the voltage has at most one operating point: the node voltages of two are the same. -/
theorem C145_nodes {m nv : Nat} {circ : List (Elem K)} {s : Sys K} {g : K} {law : String → Law K} (hnv : 0 < nv)
    (hg : 0 < g) (he : ∀ e ∈ circ, NodesLt nv e) (hp : ∀ e ∈ circ, Part e) (hpos : ∀ e ∈ circ, Positive e)
    (ha : ∀ e ∈ circ, Apart e) (hl : Grow law circ) (h : generate circ nv = .ok s) (hm : s.size = m + 1)
    {x y : Fin m → K} (hx : IsPoint nv g law circ s x) (hy : IsPoint nv g law circ s y) :
    ∀ i : Fin m, i.val < nv - 1 → x i = y i := by
  obtain ⟨k, -⟩ := no_motion hnv hg.le he hp hpos h hm (difference ha hx hy) (by
    intro id n1 n2 a b c hin
    have := mono_mul (hl id n1 n2 a b c hin) (Rlc.ext x n1 - Rlc.ext x n2) (Rlc.ext y n1 - Rlc.ext y n2)
    rw [ext_sub, ext_sub]
    convert this using 1
    ring)
  intro i hi
  have h1 := k (i.val + 1) (by omega)
  have h2 : Rlc.ext (x - y) (i.val + 1) = x i - y i := by simp [Rlc.ext, i.isLt]
  rw [h2] at h1
  exact sub_eq_zero.1 ((mul_eq_zero.1 h1).resolve_left hg.ne')

/-- the branch currents are determined by the node voltages: no loop of voltage sources and inductors -/
def Loopless (m nv : Nat) (s : Sys K) : Prop := (reduce m s.M + Op.gminMat (m := m) (nv - 1) 1).det ≠ 0

/-- a vector without node voltages -/
theorem loopless_zero {m nv : Nat} {s : Sys K} (hl : Loopless m nv s) {z : Fin m → K}
    (hz : ∀ i : Fin m, i.val < nv - 1 → z i = 0) (hM : (reduce m s.M).mulVec z = 0) : z = 0 := by
  refine Matrix.eq_zero_of_mulVec_eq_zero hl ?_
  rw [Matrix.add_mulVec, hM, zero_add]
  funext i
  rw [Op.gminMat, Matrix.mulVec_diagonal]
  by_cases h : i.val < nv - 1
  · simp [h, hz i h]
  · simp [h]

/-- C145: and the branch currents, unless voltage sources and inductors form a loop. -/
theorem C145_gmin {m nv : Nat} {circ : List (Elem K)} {s : Sys K} {g : K} {law : String → Law K} (hnv : 0 < nv)
    (hg : 0 < g) (he : ∀ e ∈ circ, NodesLt nv e) (hp : ∀ e ∈ circ, Part e) (hpos : ∀ e ∈ circ, Positive e)
    (ha : ∀ e ∈ circ, Apart e) (hl : Grow law circ) (h : generate circ nv = .ok s) (hm : s.size = m + 1)
    (hloop : Loopless m nv s)
    {x y : Fin m → K} (hx : IsPoint nv g law circ s x) (hy : IsPoint nv g law circ s y) : x = y := by
  have k := C145_nodes hnv hg he hp hpos ha hl h hm hx hy
  refine sub_eq_zero.1 (loopless_zero hloop (z := x - y) (fun i hi => by simp [k i hi]) ?_)
  have kr : ∀ r < nv, Rlc.ext x r = Rlc.ext y r := by
    intro r hr
    cases r with
    | zero => rfl
    | succ r =>
      by_cases hr' : r < m
      · simp only [Rlc.ext, hr', dif_pos]
        exact k ⟨r, hr'⟩ (by simp; omega)
      · simp [Rlc.ext, hr']
  funext i
  have d := difference ha hx hy i
  have t0 : devSum (fun id n1 n2 => inj n1 n2 ((law id).i (Rlc.ext x n1 - Rlc.ext x n2) -
        (law id).i (Rlc.ext y n1 - Rlc.ext y n2)) (i.val + 1)) circ = devSum (fun _ _ _ => 0) circ :=
    devSum_congr circ fun id n1 n2 a b c hin => by
      have ht := he _ hin
      simp only [NodesLt] at ht
      rw [kr n1 ht.1, kr n2 ht.2, sub_self, inj_zero]
  rw [t0, devSum_none, add_zero, Matrix.add_mulVec, Pi.add_apply, Op.gminMat, Matrix.mulVec_diagonal] at d
  by_cases hi : i.val < nv - 1
  · have : (x - y) i = 0 := by simp [k i hi]
    rw [this, mul_zero, add_zero] at d
    exact d
  · rw [if_neg hi, zero_mul, add_zero] at d
    exact d

/-- the circuit with a resistor of 1 Ω in the place of every device -/
def bridged : Elem K → Elem K
  | .NL id n1 n2 _ _ _ => .R id n1 n2 1
  | e => e

theorem bridged_two {circ : List (Elem K)} (hp : ∀ e ∈ circ, Part e) : ∀ e ∈ circ.map bridged, TwoPole e := by
  intro e he
  obtain ⟨d, hd, rfl⟩ := List.mem_map.1 he
  rcases hp d hd with h | h <;> cases d <;> simp_all [bridged, TwoPole, Elem.nonlinear]

theorem bridged_lt {nv : Nat} {circ : List (Elem K)} (he : ∀ e ∈ circ, NodesLt nv e) :
    ∀ e ∈ circ.map bridged, NodesLt nv e := by
  intro e hm
  obtain ⟨d, hd, rfl⟩ := List.mem_map.1 hm
  have := he d hd
  cases d <;> simp_all [bridged, NodesLt]

theorem bridged_vdes (circ : List (Elem K)) : vdes (circ.map bridged) = vdes (lin circ) := by
  induction circ with
  | nil => rfl
  | cons e t ih =>
    rw [lin_cons]
    simp only [vdes] at ih ⊢
    cases e <;> simp [bridged, Elem.nonlinear, Elem.vde, List.filter_cons, ih]

theorem bridged_kcl (c1 c2 : List (Elem K)) (nv : Nat) (x : Vec K) (r : Nat) (l : List (Elem K))
    (hp : ∀ e ∈ l, Part e) (k : Nat) : kcl c1 nv x (fun _ => 0) (l.map bridged) k r =
      kcl c2 nv x (fun _ => 0) (lin l) k r + devSum (fun _ n1 n2 => inj n1 n2 (x n1 - x n2) r) l := by
  induction l generalizing k with
  | nil => simp [kcl, lin, devSum]
  | cons e t ih =>
    have i1 := ih (fun e he => hp e (List.mem_cons_of_mem _ he))
    have h1 := hp e (List.mem_cons_self ..)
    rw [lin_cons, devSum_cons, List.map_cons, kcl, i1]
    cases e <;> simp_all [Part, TwoPole, Elem.nonlinear, bridged, kcl, devTerm, current, term, Elem.vde] <;> ring

/-- the matrix of the circuit with resistors -/
theorem bridged_row {nv : Nat} {circ : List (Elem K)} {s s' : Sys K} (he : ∀ e ∈ circ, NodesLt nv e)
    (hp : ∀ e ∈ circ, Part e) (h : generate circ nv = .ok s) (h' : generate (circ.map bridged) nv = .ok s') (x : Vec K) :
    s'.size = s.size ∧ ∀ r < s.size, mulVec s'.size s'.M x r = mulVec s.size s.M x r +
      devSum (fun _ n1 n2 => inj n1 n2 (x n1 - x n2) r) circ := by
  rw [generate_lin hp] at h
  have hl : ∀ e ∈ lin circ, NodesLt nv e := fun e hm => he e (List.mem_filter.1 hm).1
  obtain ⟨z1, n1, b1⟩ := rows_linear hl (lin_two hp) h x
  obtain ⟨z2, n2, b2⟩ := rows_linear (bridged_lt he) (bridged_two hp) h' x
  have hz : s'.size = s.size := by rw [z1, z2, bridged_vdes]
  refine ⟨hz, fun r hr => ?_⟩
  by_cases hr' : r < nv
  · rw [(n1 r hr').1, (n2 r hr').1, bridged_kcl (circ.map bridged) (lin circ) nv x r circ hp]
  · obtain ⟨k, rfl⟩ := Nat.exists_eq_add_of_le (not_lt.1 hr')
    have hk : k < (vdes (lin circ)).length := by omega
    obtain ⟨e, hek⟩ : ∃ e, (vdes (lin circ))[k]? = some e := ⟨_, List.getElem?_eq_getElem hk⟩
    rw [(b1 k e hek).1, (b2 k e (by rw [bridged_vdes]; exact hek)).1]
    have hin : e ∈ lin circ := (List.mem_filter.1 (List.mem_of_getElem? hek)).1
    have h2 := lin_two hp e hin
    have d0 : devSum (fun _ n1 n2 => inj n1 n2 (x n1 - x n2) (nv + k)) circ = devSum (fun _ _ _ => 0) circ :=
      devSum_congr circ fun id n1 n2 a b c hm => by
        have := he _ hm
        simp only [NodesLt] at this
        rw [inj, if_neg (by omega), if_neg (by omega), sub_zero]
    rw [d0, devSum_none, add_zero]
    cases e <;> simp_all [law, TwoPole]

/-- the circuit with resistors determines all voltages and currents -/
def Bridged (m nv : Nat) (circ : List (Elem K)) : Prop :=
  ∃ s' : Sys K, generate (circ.map bridged) nv = .ok s' ∧ (reduce m s'.M).det ≠ 0

/-- a vector without voltages at the devices -/
theorem bridged_zero {m nv : Nat} {circ : List (Elem K)} {s : Sys K} (he : ∀ e ∈ circ, NodesLt nv e)
    (hp : ∀ e ∈ circ, Part e) (h : generate circ nv = .ok s) (hm : s.size = m + 1) (hb : Bridged m nv circ)
    {z : Fin m → K} (hz : ∀ id n1 n2 a b c, Elem.NL id n1 n2 a b c ∈ circ → Rlc.ext z n1 - Rlc.ext z n2 = 0)
    (hM : (reduce m s.M).mulVec z = 0) : z = 0 := by
  obtain ⟨s', h', hd⟩ := hb
  refine Matrix.eq_zero_of_mulVec_eq_zero hd ?_
  obtain ⟨hs, hr⟩ := bridged_row he hp h h' (Rlc.ext z)
  funext i
  have d0 : devSum (fun _ n1 n2 => inj n1 n2 (Rlc.ext z n1 - Rlc.ext z n2) (i.val + 1)) circ = devSum (fun _ _ _ => 0) circ :=
    devSum_congr circ fun id n1 n2 a b c hin => by rw [hz id n1 n2 a b c hin, inj_zero]
  have k := hr (i.val + 1) (by have := i.isLt; omega)
  have k' := congrFun hM i
  rw [d0, devSum_none, add_zero, hs, hm, ← reduce_row, ← reduce_row] at k
  rw [k]
  exact k'

/-- C145: without Gmin there is at most one operating point if the currents grow strictly and the circuit with
resistors in the place of the devices is regular. -/
theorem C145_strict {m nv : Nat} {circ : List (Elem K)} {s : Sys K} {g : K} {law : String → Law K} (hnv : 0 < nv)
    (hg : 0 ≤ g) (he : ∀ e ∈ circ, NodesLt nv e) (hp : ∀ e ∈ circ, Part e) (hpos : ∀ e ∈ circ, Positive e)
    (ha : ∀ e ∈ circ, Apart e)
    (hl : ∀ id n1 n2 a b c, Elem.NL id n1 n2 a b c ∈ circ → StrictMono (law id).i)
    (h : generate circ nv = .ok s) (hm : s.size = m + 1) (hb : Bridged m nv circ)
    {x y : Fin m → K} (hx : IsPoint nv g law circ s x) (hy : IsPoint nv g law circ s y) : x = y := by
  have eqv : ∀ n1 n2, Rlc.ext (x - y) n1 - Rlc.ext (x - y) n2 =
      (Rlc.ext x n1 - Rlc.ext x n2) - (Rlc.ext y n1 - Rlc.ext y n2) := fun n1 n2 => by
    rw [ext_sub, ext_sub]; ring
  obtain ⟨k, kd⟩ := no_motion hnv hg he hp hpos h hm (difference ha hx hy) (by
    intro id n1 n2 a b c hin
    rw [eqv]
    exact mono_mul (hl id n1 n2 a b c hin).monotone _ _)
  have kz : ∀ id n1 n2 a b c, Elem.NL id n1 n2 a b c ∈ circ →
      Rlc.ext x n1 - Rlc.ext x n2 = Rlc.ext y n1 - Rlc.ext y n2 := by
    intro id n1 n2 a b c hin
    have := kd id n1 n2 a b c hin
    rw [eqv] at this
    rcases mul_eq_zero.1 this with h0 | h0
    · exact sub_eq_zero.1 h0
    · exact (hl id n1 n2 a b c hin).injective (sub_eq_zero.1 h0)
  refine sub_eq_zero.1 (bridged_zero he hp h hm hb (z := x - y) (fun id n1 n2 a b c hin => ?_) ?_)
  · rw [eqv, kz id n1 n2 a b c hin, sub_self]
  · funext i
    have d := difference ha hx hy i
    have t0 : devSum (fun id n1 n2 => inj n1 n2 ((law id).i (Rlc.ext x n1 - Rlc.ext x n2) -
          (law id).i (Rlc.ext y n1 - Rlc.ext y n2)) (i.val + 1)) circ = devSum (fun _ _ _ => 0) circ :=
      devSum_congr circ fun id n1 n2 a b c hin => by rw [kz id n1 n2 a b c hin, sub_self, inj_zero]
    rw [t0, devSum_none, add_zero, Matrix.add_mulVec, Pi.add_apply, Op.gminMat, Matrix.mulVec_diagonal] at d
    by_cases hi : i.val < nv - 1
    · have := k (i.val + 1) (by omega)
      have ez : Rlc.ext (x - y) (i.val + 1) = (x - y) i := by simp [Rlc.ext, i.isLt]
      rw [ez] at this
      rw [if_pos hi, this, add_zero] at d
      exact d
    · rw [if_neg hi, zero_mul, add_zero] at d
      exact d

/-! ### C146 -/

theorem matJ_eq {m nv : Nat} (gmin : K) (law : String → Law K) {circ : List (Elem K)} (ha : ∀ e ∈ circ, Apart e)
    (he : ∀ e ∈ circ, NodesLt nv e) (hnv : nv ≤ m + 1) (x z : Fin m → K) (i : Fin m) :
    (matJ gmin law circ x).mulVec z i = devSum (fun id n1 n2 => inj n1 n2
      (used gmin ((law id).gm (Rlc.ext x n1 - Rlc.ext x n2)) * (Rlc.ext z n1 - Rlc.ext z n2)) (i.val + 1)) circ := by
  obtain ⟨J, h1, h2⟩ := updateJ_spec gmin law x circ ha fun _ _ => 0
  have row : (matJ gmin law circ x).mulVec z i = ∑ c ∈ Finset.range m, Rlc.ext z (c + 1) *
      devSum (fun id n1 n2 => used gmin ((law id).gm (portV x n1 n2)) *
        (unit n1 (i.val + 1) - unit n2 (i.val + 1)) * (unit n1 (c + 1) - unit n2 (c + 1))) circ := by
    rw [Matrix.mulVec, dotProduct, Finset.sum_fin_eq_sum_range]
    refine Finset.sum_congr rfl fun c hc => ?_
    have hc' := Finset.mem_range.1 hc
    rw [dif_pos hc', matJ, h1, Option.getD_some, h2, zero_add, mul_comm]
    simp [Rlc.ext, hc']
  rw [row]
  simp only [mul_devSum]
  rw [sum_devSum]
  refine devSum_congr circ fun id n1 n2 a b c hin => ?_
  have hn := he _ hin
  simp only [NodesLt] at hn
  have pick : ∀ n < nv, ∑ c ∈ Finset.range m, Rlc.ext z (c + 1) * (unit n (c + 1) : K) = Rlc.ext z n := by
    intro n hn
    cases n with
    | zero => simp [unit, Rlc.ext]
    | succ n =>
      rw [Finset.sum_eq_single n]
      · simp [unit]
      · intro c _ hc; simp [unit, hc]
      · intro hc; exact absurd (Finset.mem_range.2 (by omega)) hc
  simp only [portV_eq]
  generalize used gmin ((law id).gm (Rlc.ext x n1 - Rlc.ext x n2)) = G
  have : ∀ c, Rlc.ext z (c + 1) * (G * ((unit n1 (i.val + 1) : K) - unit n2 (i.val + 1)) * (unit n1 (c + 1) - unit n2 (c + 1))) =
      G * (unit n1 (i.val + 1) - unit n2 (i.val + 1)) * (Rlc.ext z (c + 1) * unit n1 (c + 1)) -
      G * (unit n1 (i.val + 1) - unit n2 (i.val + 1)) * (Rlc.ext z (c + 1) * unit n2 (c + 1)) := fun c => by ring
  simp only [this, Finset.sum_sub_distrib, ← Finset.mul_sum]
  rw [pick n1 hn.1, pick n2 hn.2]
  simp only [inj, unit]
  split_ifs <;> ring

/-- the conductances of all devices are not negative -/
def Conduct (law : String → Law K) (circ : List (Elem K)) : Prop :=
  ∀ id n1 n2 a b c, Elem.NL id n1 n2 a b c ∈ circ → ∀ v, 0 ≤ (law id).gm v

theorem used_pos {gmin g : K} (hg : 0 < gmin) (h : 0 ≤ g) : 0 < used gmin g := by
  unfold used
  split_ifs with h0
  · linarith
  · exact lt_of_le_of_ne h (Ne.symm h0)

/-- a solution of the linearised system -/
theorem linearised {m nv : Nat} {circ : List (Elem K)} {s : Sys K} {g gmin : K} {law : String → Law K} (hnv : 0 < nv)
    (hg : 0 ≤ g) (hgm : 0 < gmin) (he : ∀ e ∈ circ, NodesLt nv e) (hp : ∀ e ∈ circ, Part e)
    (hpos : ∀ e ∈ circ, Positive e) (ha : ∀ e ∈ circ, Apart e) (hl : Conduct law circ)
    (h : generate circ nv = .ok s) (hm : s.size = m + 1) (x : Fin m → K) {z : Fin m → K}
    (hz : (reduce m s.M + Op.gminMat (nv - 1) g + matJ gmin law circ x).mulVec z = 0) :
    (∀ r < nv, g * Rlc.ext z r = 0) ∧
    (∀ id n1 n2 a b c, Elem.NL id n1 n2 a b c ∈ circ → Rlc.ext z n1 - Rlc.ext z n2 = 0) ∧
    (reduce m s.M).mulVec z = 0 := by
  have hsz : s.size = nv + (vdes (lin circ)).length := by
    rw [generate_lin hp] at h
    exact (rows_linear (fun e hm => he e (List.mem_filter.1 hm).1) (lin_two hp) h (fun _ => 0)).1
  have eq : ∀ i : Fin m, (reduce m s.M + Op.gminMat (nv - 1) g).mulVec z i +
      devSum (fun id n1 n2 => inj n1 n2
        (used gmin ((law id).gm (Rlc.ext x n1 - Rlc.ext x n2)) * (Rlc.ext z n1 - Rlc.ext z n2)) (i.val + 1)) circ = 0 := by
    intro i
    have := congrFun hz i
    rw [Matrix.add_mulVec, Pi.add_apply, matJ_eq gmin law ha he (by omega)] at this
    exact this
  obtain ⟨k, kd⟩ := no_motion hnv hg he hp hpos h hm (t := fun id n1 n2 =>
    used gmin ((law id).gm (Rlc.ext x n1 - Rlc.ext x n2)) * (Rlc.ext z n1 - Rlc.ext z n2)) eq (by
      intro id n1 n2 a b c hin
      have := used_pos hgm (hl id n1 n2 a b c hin (Rlc.ext x n1 - Rlc.ext x n2))
      have h2 := mul_nonneg this.le (mul_self_nonneg (Rlc.ext z n1 - Rlc.ext z n2))
      linarith)
  have kz : ∀ id n1 n2 a b c, Elem.NL id n1 n2 a b c ∈ circ → Rlc.ext z n1 - Rlc.ext z n2 = 0 := by
    intro id n1 n2 a b c hin
    have h1 := used_pos hgm (hl id n1 n2 a b c hin (Rlc.ext x n1 - Rlc.ext x n2))
    rcases mul_eq_zero.1 (kd id n1 n2 a b c hin) with h0 | h0
    · exact h0
    · exact (mul_eq_zero.1 h0).resolve_left h1.ne'
  refine ⟨k, kz, funext fun i => ?_⟩
  have d := eq i
  have t0 : devSum (fun id n1 n2 => inj n1 n2
      (used gmin ((law id).gm (Rlc.ext x n1 - Rlc.ext x n2)) * (Rlc.ext z n1 - Rlc.ext z n2)) (i.val + 1)) circ =
        devSum (fun _ _ _ => 0) circ :=
    devSum_congr circ fun id n1 n2 a b c hin => by rw [kz id n1 n2 a b c hin, mul_zero, inj_zero]
  rw [t0, devSum_none, add_zero, Matrix.add_mulVec, Pi.add_apply, Op.gminMat, Matrix.mulVec_diagonal] at d
  by_cases hi : i.val < nv - 1
  · have := k (i.val + 1) (by omega)
    have ez : Rlc.ext z (i.val + 1) = z i := by simp [Rlc.ext, i.isLt]
    rw [ez] at this
    rw [if_pos hi, this, add_zero] at d
    exact d
  · rw [if_neg hi, zero_mul, add_zero] at d
    exact d

/-- C146: the matrix of Newton's method is regular at every point if the circuit with resistors in the place of the
devices is regular. -/
theorem C146_regular {m nv : Nat} {circ : List (Elem K)} {s : Sys K} {g gmin : K} {law : String → Law K} (hnv : 0 < nv)
    (hg : 0 ≤ g) (hgm : 0 < gmin) (he : ∀ e ∈ circ, NodesLt nv e) (hp : ∀ e ∈ circ, Part e)
    (hpos : ∀ e ∈ circ, Positive e) (ha : ∀ e ∈ circ, Apart e) (hl : Conduct law circ)
    (h : generate circ nv = .ok s) (hm : s.size = m + 1) (hb : Bridged m nv circ) (x : Fin m → K) :
    (reduce m s.M + Op.gminMat (nv - 1) g + matJ gmin law circ x).det ≠ 0 := by
  intro h0
  obtain ⟨z, hz, h1⟩ := Matrix.exists_mulVec_eq_zero_iff.2 h0
  obtain ⟨-, k, hM⟩ := linearised hnv hg hgm he hp hpos ha hl h hm x h1
  exact hz (bridged_zero he hp h hm hb k hM)

/-- C146: and with Gmin if there are no loops of voltage sources and inductors. -/
theorem C146_gmin {m nv : Nat} {circ : List (Elem K)} {s : Sys K} {g gmin : K} {law : String → Law K} (hnv : 0 < nv)
    (hg : 0 < g) (hgm : 0 < gmin) (he : ∀ e ∈ circ, NodesLt nv e) (hp : ∀ e ∈ circ, Part e)
    (hpos : ∀ e ∈ circ, Positive e) (ha : ∀ e ∈ circ, Apart e) (hl : Conduct law circ)
    (h : generate circ nv = .ok s) (hm : s.size = m + 1) (hloop : Loopless m nv s) (x : Fin m → K) :
    (reduce m s.M + Op.gminMat (nv - 1) g + matJ gmin law circ x).det ≠ 0 := by
  intro h0
  obtain ⟨z, hz, h1⟩ := Matrix.exists_mulVec_eq_zero_iff.2 h0
  obtain ⟨k, -, hM⟩ := linearised hnv hg.le hgm he hp hpos ha hl h hm x h1
  refine hz (loopless_zero hloop (fun i hi => ?_) hM)
  have := k (i.val + 1) (by omega)
  have ez : Rlc.ext z (i.val + 1) = z i := by simp [Rlc.ext, i.isLt]
  rw [ez] at this
  exact (mul_eq_zero.1 this).resolve_left hg.ne'

/-- Newton's method with regular matrices ends -/
theorem newton_ends {m : Nat} (o : Newton.Opts K) (t : Conv.Tol K) (p : Newton.Problem K m)
    (hr : ∀ x, (Newton.jac p x).det ≠ 0) (k it : Nat) (x : Fin m → K) (last)
    (hk : k ≠ 0 ∨ last ≠ none) : ∃ r, Newton.loop o t p k it x last = .ok r := by
  induction k generalizing it x last with
  | zero =>
    cases last with
    | none => simp at hk
    | some l => exact ⟨_, rfl⟩
  | succ k ih =>
    rw [Newton.loop]
    simp only [Newton.solve, if_neg (hr x)]
    split_ifs
    · exact ⟨_, rfl⟩
    · exact ⟨_, rfl⟩
    · exact ih _ _ _ (Or.inr (by simp))

/-- C146: so Newton's method does not stop for a singular matrix in any of the systems that `dc_solve` tries, whatever
the starting point. -/
theorem C146_newton {m nv : Nat} {circ : List (Elem K)} {s : Sys K} {g gmin : K} {law : String → Law K} (hnv : 0 < nv)
    (hg : 0 ≤ g) (hgm : 0 < gmin) (he : ∀ e ∈ circ, NodesLt nv e) (hp : ∀ e ∈ circ, Part e)
    (hpos : ∀ e ∈ circ, Positive e) (ha : ∀ e ∈ circ, Apart e) (hl : Conduct law circ)
    (hd : Newton.isNonlinear circ = true)
    (h : generate circ nv = .ok s) (hm : s.size = m + 1) (hb : Bridged m nv circ) (y : Homotopy.Sys)
    (o : Newton.Opts K) (t : Conv.Tol K) {maxit : Nat} (hi : 0 < maxit) (x0 : Option (Fin m → K)) :
    ∃ r, Newton.mdnSolver o t (Op.problem (opCirc m nv gmin law circ s) g y) maxit x0 = .ok r := by
  refine newton_ends o t _ (fun x => ?_) maxit 0 _ none (Or.inl (by omega))
  have key : ∀ g', 0 ≤ g' → (reduce m s.M + Op.gminMat (nv - 1) g' + matJ gmin law circ x).det ≠ 0 := fun g' hg' =>
    C146_regular hnv hg' hgm he hp hpos ha hl h hm hb x
  have e0 : (if (opCirc m nv gmin law circ s).nonlinear = true then matJ gmin law circ x else 0) =
      matJ gmin law circ x := if_pos hd
  cases y with
  | full =>
    change (_ + (if (opCirc m nv gmin law circ s).nonlinear = true then matJ gmin law circ x else 0)).det ≠ 0
    rw [e0]
    exact key g hg
  | src i =>
    change (_ + (if (opCirc m nv gmin law circ s).nonlinear = true then matJ gmin law circ x else 0)).det ≠ 0
    rw [e0]
    exact key g hg
  | gmin i =>
    change (_ + (if (opCirc m nv gmin law circ s).nonlinear = true then matJ gmin law circ x else 0)).det ≠ 0
    have := key (1 / 10 ^ (i + 1)) (by positivity)
    rw [add_comm (reduce m s.M)] at this
    rw [e0]
    exact this

/-! ### Diodes -/

/-- the current `c` is on the characteristic of the junction at the voltage `w`, the jumps of the exponentials that are
cut off (`C42_jump_refuted`) being filled -/
def Fills (m : Diode.DM) (w c : ℝ) : Prop := (∀ u < w, m.cur u ≤ c) ∧ ∀ u, w < u → c ≤ m.cur u

/-- what the model of a diode returns, with or without series resistance; with one: the exact solution, see
`IsDiode.exact`. At voltages where there is none because of the jumps, the current is that of the filled characteristic. -/
structure IsDiode (gmin : ℝ) (l : Law ℝ) (m : Diode.DM) (area : ℝ) : Prop where
  ok : m.Ok
  apos : 0 < area
  rs : 0 ≤ m.RS
  plain : m.RS = 0 → l.i = m.getI area
  series : m.RS ≠ 0 → ∃ vd : ℝ → ℝ, ∀ v, vd v / m.RS = l.i v * area ∧ Fills m (v - vd v) (l.i v)
  gm : l.gm = m.gm gmin area

theorem cur_strictMono {m : Diode.DM} (h : m.Ok) : StrictMono m.cur := fun a b hab => by
  have := Diode.C42_increasing m h 1 one_pos hab
  simpa [Diode.DM.getI] using this

/-- the currents of the filled characteristic grow -/
theorem Fills.lt {m : Diode.DM} (h : m.Ok) {a b c d : ℝ} (hc : Fills m a c) (hd : Fills m b d) (hab : a < b) : c < d := by
  obtain ⟨u, hu1, hu2⟩ := exists_between hab
  obtain ⟨w, hw1, hw2⟩ := exists_between hu2
  exact (hc.2 u hu1).trans_lt ((cur_strictMono h hw1).trans_le (hd.1 w hw2))

/-- the current of a diode grows with its voltage -/
theorem IsDiode.strictMono {gmin : ℝ} {l : Law ℝ} {m : Diode.DM} {area : ℝ} (h : IsDiode gmin l m area) :
    StrictMono l.i := by
  by_cases h0 : m.RS = 0
  · rw [h.plain h0]
    exact Diode.C42_increasing m h.ok area h.apos
  · obtain ⟨vd, hv⟩ := h.series h0
    have hrs : 0 < m.RS := lt_of_le_of_ne h.rs (Ne.symm h0)
    intro v w hvw
    obtain ⟨r1, e1⟩ := hv v
    obtain ⟨r2, e2⟩ := hv w
    by_contra hn
    have hle := not_lt.1 hn
    have h2 : vd w / m.RS ≤ vd v / m.RS := by rw [r1, r2]; exact mul_le_mul_of_nonneg_right hle h.apos.le
    have h3 : vd w ≤ vd v := by rwa [div_le_div_iff_of_pos_right hrs] at h2
    exact hn (e1.lt h.ok e2 (by linarith))

/-- where the equation of the series resistance has a solution, the current is the one that is returned for it -/
theorem IsDiode.exact {gmin : ℝ} {l : Law ℝ} {m : Diode.DM} {area : ℝ} (h : IsDiode gmin l m area) (h0 : m.RS ≠ 0)
    {v r : ℝ} (hr : m.IsRoot area v r) : l.i v = m.getIrs v r := by
  obtain ⟨vd, hv⟩ := h.series h0
  obtain ⟨r1, e1⟩ := hv v
  have hrs : 0 < m.RS := lt_of_le_of_ne h.rs (Ne.symm h0)
  have e2 : Fills m (v - r) (m.cur (v - r)) :=
    ⟨fun u hu => (cur_strictMono h.ok hu).le, fun u hu => (cur_strictMono h.ok hu).le⟩
  have r2 : r / m.RS = m.cur (v - r) * area := sub_eq_zero.1 hr
  rw [Diode.DM.getIrs]
  rcases lt_trichotomy (vd v) r with h3 | h3 | h3
  · have := e2.lt h.ok e1 (by linarith)
    have h4 : vd v / m.RS < r / m.RS := (div_lt_div_iff_of_pos_right hrs).2 h3
    rw [r1, r2] at h4
    exact absurd (lt_of_mul_lt_mul_right h4 h.apos.le) (not_lt.2 this.le)
  · have h4 : l.i v * area = m.cur (v - r) * area := by rw [← r1, ← r2, h3]
    exact mul_right_cancel₀ h.apos.ne' h4
  · have := e1.lt h.ok e2 (by linarith)
    have h4 : r / m.RS < vd v / m.RS := (div_lt_div_iff_of_pos_right hrs).2 h3
    rw [r1, r2] at h4
    exact absurd (lt_of_mul_lt_mul_right h4 h.apos.le) (not_lt.2 this.le)

/-- there is such a current for all diodes -/
theorem diode_exists (gmin : ℝ) {m : Diode.DM} (h : m.Ok) {area : ℝ} (ha : 0 < area) (hr : 0 ≤ m.RS) :
    ∃ l : Law ℝ, IsDiode gmin l m area := by
  by_cases h0 : m.RS = 0
  · exact ⟨⟨m.getI area, m.gm gmin area⟩, h, ha, hr, fun _ => rfl, fun hn => absurd h0 hn, rfl⟩
  have hrs : 0 < m.RS := lt_of_le_of_ne hr (Ne.symm h0)
  have key : ∀ v : ℝ, ∃ d c : ℝ, d / m.RS = c * area ∧ Fills m (v - d) c := by
    intro v
    set k := m.RS * area with hk
    have hkp : 0 < k := mul_pos hrs ha
    set S : Set ℝ := {d | d / k ≤ m.cur (v - d)} with hS
    have mono := (cur_strictMono h).monotone
    have hne : S.Nonempty := by
      refine ⟨min 0 (k * m.cur v), ?_⟩
      have h1 : min 0 (k * m.cur v) / k ≤ m.cur v := by
        rw [div_le_iff₀ hkp, mul_comm]
        exact min_le_right _ _
      exact h1.trans (mono (by have := min_le_left 0 (k * m.cur v); linarith))
    have hbd : ∀ d ∈ S, d ≤ max 0 (k * m.cur v) := fun d hd => by
      by_contra hn
      rw [not_le, max_lt_iff] at hn
      have h1 : d / k ≤ m.cur v := (show d / k ≤ m.cur (v - d) from hd).trans (mono (by linarith [hn.1]))
      rw [div_le_iff₀ hkp, mul_comm] at h1
      linarith [hn.2]
    have hB : BddAbove S := ⟨_, hbd⟩
    refine ⟨sSup S, sSup S / k, ?_, fun u hu => ?_, fun u hu => ?_⟩
    · rw [hk]
      field_simp
    · refine le_of_forall_pos_le_add fun e he => ?_
      set d := min (v - u) (sSup S + e * k) with hd
      have hd1 : sSup S < d := lt_min (by linarith) (by have := mul_pos he hkp; linarith)
      have hd2 : d ∉ S := fun hin => absurd (le_csSup hB hin) (not_le.2 hd1)
      have hd3 : m.cur (v - d) < d / k := not_le.1 hd2
      have hd4 : m.cur u ≤ m.cur (v - d) := mono (by have := min_le_left (v - u) (sSup S + e * k); linarith)
      have hd5 : d / k ≤ sSup S / k + e := by
        rw [div_add' _ _ _ hkp.ne']
        exact (div_le_div_iff_of_pos_right hkp).2 (min_le_right _ _)
      linarith
    · have h1 : v - u < sSup S := by linarith
      refine le_of_forall_pos_le_add fun e he => ?_
      obtain ⟨d, hd, hd2⟩ := exists_lt_of_lt_csSup hne (show max (v - u) (sSup S - e * k) < sSup S from
        max_lt h1 (by have := mul_pos he hkp; linarith))
      have h2 : d / k ≤ m.cur u := (show d / k ≤ m.cur (v - d) from hd).trans (mono (by
        have := (le_max_left (v - u) (sSup S - e * k)).trans_lt hd2
        linarith))
      have h3 : sSup S / k ≤ d / k + e := by
        rw [div_add' _ _ _ hkp.ne']
        exact (div_le_div_iff_of_pos_right hkp).2 (by
          have := (le_max_right (v - u) (sSup S - e * k)).trans_lt hd2
          linarith)
      linarith
  choose vd c h1 h2 using key
  exact ⟨⟨c, m.gm gmin area⟩, h, ha, hr, fun hn => absurd hn h0, fun _ => ⟨vd, fun v => ⟨h1 v, h2 v⟩⟩, rfl⟩

/-- its conductance is positive without breakdown -/
theorem IsDiode.gm_pos {gmin : ℝ} (hg : 0 < gmin) {l : Law ℝ} {m : Diode.DM} {area : ℝ} (h : IsDiode gmin l m area)
    (hb : m.BV = none) (v : ℝ) : 0 < l.gm v := by
  rw [h.gm, Diode.DM.gm, hb]
  have h1 : 0 < m.IS / (m.N * m.VT) * Diode.safeExp (v / (m.N * m.VT)) :=
    mul_pos (div_pos h.ok.IS (mul_pos h.ok.N h.ok.VT)) (Diode.safeExp_pos _)
  have h2 : 0 ≤ m.ISR / (m.NR * m.VT) * Diode.safeExp (v / (m.NR * m.VT)) :=
    mul_nonneg (div_nonneg h.ok.ISR (mul_pos h.ok.NR h.ok.VT).le) (Diode.safeExp_pos _).le
  simp only [Diode.breakdown, mul_zero, add_zero]
  have h3 := add_pos_of_pos_of_nonneg h1 h2
  refine mul_pos h.apos ?_
  split_ifs with h0
  · have h4 : 0 < m.RS := lt_of_le_of_ne h.rs (Ne.symm h0)
    positivity
  · exact h3

/-- C145: a circuit of positive resistors, capacitors, inductors, independent sources and diodes has at most one
operating point: breakdown, high injection and series resistances are allowed. -/
theorem C145_diodes {m nv : Nat} {circ : List (Elem ℝ)} {s : Sys ℝ} {g gmin : ℝ} {law : String → Law ℝ} (hnv : 0 < nv)
    (hg : 0 ≤ g) (he : ∀ e ∈ circ, NodesLt nv e) (hp : ∀ e ∈ circ, Part e) (hpos : ∀ e ∈ circ, Positive e)
    (ha : ∀ e ∈ circ, Apart e)
    (hl : ∀ id n1 n2 a b c, Elem.NL id n1 n2 a b c ∈ circ → ∃ dm area, IsDiode gmin (law id) dm area)
    (h : generate circ nv = .ok s) (hm : s.size = m + 1) (hb : Bridged m nv circ)
    {x y : Fin m → ℝ} (hx : IsPoint nv g law circ s x) (hy : IsPoint nv g law circ s y) : x = y :=
  C145_strict hnv hg he hp hpos ha (fun id n1 n2 a b c hin => by
    obtain ⟨dm, area, hd⟩ := hl id n1 n2 a b c hin
    exact hd.strictMono) h hm hb hx hy

/-- C146: Newton's method does not meet a singular matrix in circuits with diodes without breakdown. -/
theorem C146_diodes_partial {m nv : Nat} {circ : List (Elem ℝ)} {s : Sys ℝ} {g gmin : ℝ} {law : String → Law ℝ}
    (hnv : 0 < nv) (hg : 0 ≤ g) (hgm : 0 < gmin) (he : ∀ e ∈ circ, NodesLt nv e) (hp : ∀ e ∈ circ, Part e)
    (hpos : ∀ e ∈ circ, Positive e) (ha : ∀ e ∈ circ, Apart e) (hd : Newton.isNonlinear circ = true)
    (hl : ∀ id n1 n2 a b c, Elem.NL id n1 n2 a b c ∈ circ → ∃ dm area, IsDiode gmin (law id) dm area ∧ dm.BV = none)
    (h : generate circ nv = .ok s) (hm : s.size = m + 1) (hb : Bridged m nv circ) (y : Homotopy.Sys)
    (o : Newton.Opts ℝ) (t : Conv.Tol ℝ) {maxit : Nat} (hi : 0 < maxit) (x0 : Option (Fin m → ℝ)) :
    ∃ r, Newton.mdnSolver o t (Op.problem (opCirc m nv gmin law circ s) g y) maxit x0 = .ok r :=
  C146_newton hnv hg hgm he hp hpos ha (fun id n1 n2 a b c hin v => by
    obtain ⟨dm, area, h1, h2⟩ := hl id n1 n2 a b c hin
    exact (h1.gm_pos hgm h2 v).le) hd h hm hb y o t hi x0

/-! ### Examples -/

/-- the equations of a circuit -/
noncomputable def sysR (circ : List (Elem ℝ)) (nv : Nat) : Sys ℝ :=
  match generate circ nv with
  | .ok s => s
  | .error _ => ⟨0, fun _ _ => 0, fun _ => 0⟩

/-- a resistor and a diode in parallel -/
noncomputable def clamp (r : ℝ) : List (Elem ℝ) :=
  [.I "I1" 0 1 ⟨some 1, none, false, none⟩, .R "R1" 1 0 r, .NL "D1" 1 0 none [(1, 0)] [(1, 0)]]

theorem clamp_sys (r : ℝ) : generate (clamp r) 2 = .ok (sysR (clamp r) 2) := rfl

theorem clamp_entry (r : ℝ) : (sysR (clamp r) 2).M 1 1 = 1 / r := by
  simp [sysR, clamp, generate, loop, stamp1, stamp2, stamp3, Mat.add, Mat.put, Vec.add, Src.eval]

theorem clamp_bridged (r : ℝ) (hr : 0 < r) : Bridged 1 2 (clamp r) := by
  refine ⟨sysR ((clamp r).map bridged) 2, rfl, ?_⟩
  rw [Matrix.det_fin_one]
  have : Rlc.reduce 1 (sysR ((clamp r).map bridged) 2).M 0 0 = 1 / r + 1 := by
    simp [Rlc.reduce, sysR, clamp, bridged, generate, loop, stamp1, stamp2, stamp3, Mat.add, Mat.put, Vec.add, Src.eval]
  rw [this]
  positivity

/-- the default diode -/
noncomputable def plainLaw : String → Law ℝ := fun _ => ⟨Diode.default.getI 1, Diode.default.gm (1 / 10 ^ 12) 1⟩

theorem plain_diode : IsDiode (1 / 10 ^ 12) (plainLaw "D1") Diode.default 1 := by
  refine ⟨?_, one_pos, by simp [Diode.default], fun _ => rfl, fun h => absurd rfl h, rfl⟩
  constructor <;> norm_num [Diode.default]

theorem clamp_sound (r : ℝ) (hr : 0 < r) : (∀ e ∈ clamp r, NodesLt 2 e) ∧ (∀ e ∈ clamp r, Part e) ∧
    (∀ e ∈ clamp r, Positive e) ∧ ∀ e ∈ clamp r, Apart e := by
  simp [clamp, NodesLt, Part, TwoPole, Elem.nonlinear, Positive, Apart, hr]

/-- the equation of a resistor and a diode fed by a current has at most one solution -/
example (x y : Fin 1 → ℝ) (hx : IsPoint 2 0 plainLaw (clamp 1000) (sysR (clamp 1000) 2) x)
    (hy : IsPoint 2 0 plainLaw (clamp 1000) (sysR (clamp 1000) 2) y) : x = y := by
  obtain ⟨h1, h2, h3, h4⟩ := clamp_sound 1000 (by norm_num)
  refine C145_diodes (gmin := 1 / 10 ^ 12) (by norm_num) le_rfl h1 h2 h3 h4 ?_ (clamp_sys 1000) rfl
    (clamp_bridged _ (by norm_num)) hx hy
  intro id n1 n2 a b c hin
  simp only [clamp, List.mem_cons, List.not_mem_nil, or_false, reduceCtorEq, false_or] at hin
  exact ⟨Diode.default, 1, plain_diode⟩

/-- and Newton's method reaches its end from everywhere -/
example (x0 : Option (Fin 1 → ℝ)) (y : Homotopy.Sys) (t : Conv.Tol ℝ) (o : Newton.Opts ℝ) :
    ∃ r, Newton.mdnSolver o t (Op.problem (opCirc 1 2 (1 / 10 ^ 12) plainLaw (clamp 1000) (sysR (clamp 1000) 2)) 0 y)
      10000 x0 = .ok r := by
  obtain ⟨h1, h2, h3, h4⟩ := clamp_sound 1000 (by norm_num)
  refine C146_diodes_partial (by norm_num) le_rfl (by norm_num) h1 h2 h3 h4 rfl ?_ (clamp_sys 1000) rfl
    (clamp_bridged _ (by norm_num)) y o t (by norm_num) x0
  intro id n1 n2 a b c hin
  simp only [clamp, List.mem_cons, List.not_mem_nil, or_false, reduceCtorEq, false_or] at hin
  exact ⟨Diode.default, 1, plain_diode, rfl⟩

/-- the same holds for a diode with 10 ohm in series -/
example (x0 : Option (Fin 1 → ℝ)) (y : Homotopy.Sys) (t : Conv.Tol ℝ) (o : Newton.Opts ℝ) : ∃ law : String → Law ℝ,
    IsDiode (1 / 10 ^ 12) (law "D1") { Diode.default with RS := 10 } 1 ∧
    ∃ r, Newton.mdnSolver o t (Op.problem (opCirc 1 2 (1 / 10 ^ 12) law (clamp 1000) (sysR (clamp 1000) 2)) 0 y)
      10000 x0 = .ok r := by
  obtain ⟨l, hl⟩ := diode_exists (1 / 10 ^ 12) (m := { Diode.default with RS := 10 })
    (by constructor <;> norm_num [Diode.default]) one_pos (by norm_num)
  obtain ⟨h1, h2, h3, h4⟩ := clamp_sound 1000 (by norm_num)
  refine ⟨fun _ => l, hl, ?_⟩
  refine C146_diodes_partial (by norm_num) le_rfl (by norm_num) h1 h2 h3 h4 rfl ?_ (clamp_sys 1000) rfl
    (clamp_bridged _ (by norm_num)) y o t (by norm_num) x0
  intro id n1 n2 a b c hin
  exact ⟨_, 1, hl, rfl⟩

/-- a diode with breakdown -/
noncomputable def zener : Diode.DM :=
  { IS := 1, N := 1, NBV := 1, ISR := 0, NR := 1, RS := 0, BV := some 1, IKF := none,
    VT := 1, T := 300, XTI := 3, TBV := 0, TRS := 0 }

theorem zener_gm (gmin : ℝ) : zener.gm gmin 1 (-2) = Real.exp (-2) - Real.exp 1 := by
  have e1 : Diode.safeExp (-2) = Real.exp (-2) := by rw [Diode.safeExp, if_pos (by norm_num)]
  have e2 : Diode.safeExp 1 = Real.exp 1 := by rw [Diode.safeExp, if_pos (by norm_num)]
  have e3 : (-(-2 + 1) : ℝ) = 1 := by norm_num
  simp only [Diode.DM.gm, zener, Diode.breakdown, div_one, mul_one, ne_eq, not_true_eq_false, if_false, one_mul, e1, e3, e2]
  ring

/-- C146: with breakdown the conductance that is used can be negative, and Newton's method can stop at a singular
matrix although the current of the diode grows with its voltage and the circuit has one operating point at most. -/
theorem C146_breakdown_refuted (g gmin : ℝ) (hg : 0 ≤ g) (hg1 : g < 1) : ∃ r : ℝ, 0 < r ∧
    ∃ law : String → Law ℝ, IsDiode gmin (law "D1") zener 1 ∧ Bridged 1 2 (clamp r) ∧
      ∀ (o : Newton.Opts ℝ) (t : Conv.Tol ℝ) (k : Nat),
        Newton.mdnSolver o t (Op.problem (opCirc 1 2 gmin law (clamp r) (sysR (clamp r) 2)) g .full) (k + 1)
          (some fun _ => -2) = .error .singular := by
  have h1 : Real.exp (-2) < 1 := by rw [← Real.exp_zero]; exact Real.exp_lt_exp.2 (by norm_num)
  have h2 : 2 < Real.exp 1 := by have := Real.add_one_lt_exp (one_ne_zero (α := ℝ)); linarith
  set G := Real.exp 1 - Real.exp (-2) - g with hG
  have hpos : 0 < G := by rw [hG]; linarith
  refine ⟨1 / G, by positivity, fun _ => ⟨zener.getI 1, zener.gm gmin 1⟩,
    ⟨by constructor <;> norm_num [zener], one_pos, by simp [zener], fun _ => rfl, fun h => absurd rfl h, rfl⟩,
    clamp_bridged _ (by positivity), fun o t k => ?_⟩
  set law : String → Law ℝ := fun _ => ⟨zener.getI 1, zener.gm gmin 1⟩ with hlaw
  obtain ⟨e1, e2, e3, e4⟩ := clamp_sound (1 / G) (by positivity)
  have hd : (Newton.jac (Op.problem (opCirc 1 2 gmin law (clamp (1 / G)) (sysR (clamp (1 / G)) 2)) g .full)
      fun _ => -2).det = 0 := by
    rw [Matrix.det_fin_one]
    obtain ⟨J, j1, j2⟩ := updateJ_spec (m := 1) gmin law (fun _ => -2) (clamp (1 / G)) e4 fun _ _ => 0
    have hJ : matJ gmin law (clamp (1 / G)) (fun _ : Fin 1 => -2) 0 0 = -(Real.exp 1 - Real.exp (-2)) := by
      have j3 := j2 0 0
      rw [matJ, j1, Option.getD_some]
      simp only [Nat.cast_zero] at j3
      simp only [Fin.val_zero, Nat.cast_zero]
      rw [j3]
      have pv : portV (m := 1) (fun _ => (-2 : ℝ)) 1 0 = -2 := by simp [portV]
      have un : used gmin (zener.gm gmin 1 (-2)) = -(Real.exp 1 - Real.exp (-2)) := by
        rw [used, zener_gm, if_neg (by linarith)]; ring
      simp only [clamp, devSum, List.map_cons, List.map_nil, devTerm, List.sum_cons, List.sum_nil, pv, hlaw, un, unit]
      norm_num
    have : Newton.jac (Op.problem (opCirc 1 2 gmin law (clamp (1 / G)) (sysR (clamp (1 / G)) 2)) g .full)
        (fun _ => -2) 0 0 = (sysR (clamp (1 / G)) 2).M 1 1 + g + matJ gmin law (clamp (1 / G)) (fun _ : Fin 1 => -2) 0 0 := by
      change (sysR (clamp (1 / G)) 2).M 1 1 + Op.gminMat (m := 1) 1 g 0 0 +
        matJ gmin law (clamp (1 / G)) (fun _ : Fin 1 => -2) 0 0 = _
      simp [Op.gminMat]
    rw [this, hJ, clamp_entry, one_div_one_div, hG]
    ring
  rw [Newton.mdnSolver, Newton.loop]
  simp only [Option.getD_some, Newton.solve, if_pos hd]

/-- a resistor and a device in parallel, fed by the current `j` -/
def loadLine (r j : ℝ) : List (Elem ℝ) :=
  [.I "I1" 0 1 ⟨some j, none, false, none⟩, .R "R1" 1 0 r, .NL "D1" 1 0 none [(1, 0)] [(1, 0)]]

/-- C145: the growth of the currents is needed: for every device whose current falls somewhere there are a positive
resistor and a current source that give two operating points. -/
theorem C145_falling (law : String → Law ℝ) {a b : ℝ} (hab : a < b) (hi : (law "D1").i b < (law "D1").i a) :
    ∃ r j : ℝ, 0 < r ∧ generate (loadLine r j) 2 = .ok (sysR (loadLine r j) 2) ∧ (sysR (loadLine r j) 2).size = 2 ∧
      Bridged 1 2 (loadLine r j) ∧
      IsPoint 2 0 law (loadLine r j) (sysR (loadLine r j) 2) (fun _ : Fin 1 => a) ∧
      IsPoint 2 0 law (loadLine r j) (sysR (loadLine r j) 2) (fun _ : Fin 1 => b) := by
  have h1 : 0 < b - a := by linarith
  have h2 : 0 < (law "D1").i a - (law "D1").i b := by linarith
  set r := (b - a) / ((law "D1").i a - (law "D1").i b) with hr
  set j := a / r + (law "D1").i a with hj
  have hrp : 0 < r := div_pos h1 h2
  have hap : ∀ e ∈ loadLine r j, Apart e := by simp [loadLine, Apart]
  have hM : (sysR (loadLine r j) 2).M 1 1 = 1 / r := by
    simp [sysR, loadLine, generate, loop, stamp1, stamp2, stamp3, Mat.add, Mat.put, Vec.add, Src.eval]
  have hN : (sysR (loadLine r j) 2).N 1 = -j := by
    simp [sysR, loadLine, generate, loop, stamp1, stamp2, stamp3, Mat.add, Mat.put, Vec.add, Vec.put, Src.eval]
  have row : ∀ v : ℝ, v / r - j + (law "D1").i v = 0 →
      IsPoint 2 0 law (loadLine r j) (sysR (loadLine r j) 2) (fun _ : Fin 1 => v) := by
    intro v hv i
    obtain rfl : i = 0 := Subsingleton.elim _ _
    rw [vecT_eq law hap]
    have hc : currents law (loadLine r j) (fun _ : Fin 1 => v) 1 = (law "D1").i v := by
      simp [currents, loadLine, devSum, devTerm, inj, Rlc.ext]
    have hm : (Rlc.reduce 1 (sysR (loadLine r j) 2).M + Op.gminMat (2 - 1) 0).mulVec (fun _ : Fin 1 => v) 0 = 1 / r * v := by
      rw [← hM]
      simp [Matrix.mulVec, dotProduct, Rlc.reduce, Op.gminMat]
    change _ + (sysR (loadLine r j) 2).N 1 + currents law (loadLine r j) (fun _ : Fin 1 => v) 1 = 0
    rw [hm, hc, hN]
    linear_combination hv
  refine ⟨r, j, hrp, rfl, rfl, ⟨sysR ((loadLine r j).map bridged) 2, rfl, ?_⟩, row a ?_, row b ?_⟩
  · rw [Matrix.det_fin_one]
    have : Rlc.reduce 1 (sysR ((loadLine r j).map bridged) 2).M 0 0 = 1 / r + 1 := by
      simp [Rlc.reduce, sysR, loadLine, bridged, generate, loop, stamp1, stamp2, stamp3, Mat.add, Mat.put, Vec.add, Src.eval]
    rw [this]
    positivity
  · rw [hj]; ring
  · have : (b - a) / r = (law "D1").i a - (law "D1").i b := by
      rw [hr]; field_simp
    rw [hj]
    have e : b / r - (a / r + (law "D1").i a) + (law "D1").i b = (b - a) / r - ((law "D1").i a - (law "D1").i b) := by ring
    rw [e, this, sub_self]

example : ∃ law : String → Law ℝ, (law "D1").i 2 < (law "D1").i 1 := ⟨fun _ => ⟨fun v => -v, fun _ => -1⟩, by norm_num⟩

end Verif.Devices
