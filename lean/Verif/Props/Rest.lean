import Verif.Props.OpInfo
import Mathlib.Topology.Order.IntermediateValue

/-!
C150: devices that take power cannot lift a voltage above those of the sources.
-/

namespace Verif.Rest
open Verif.Circuit Verif.Mna Verif.Dyn Verif.Rlc Verif.Recip Verif.Bound Verif.Devices

section Field
variable {K : Type} [Field K] [LinearOrder K] [IsStrictOrderedRing K]

/-- the devices take power at all voltages -/
def Takes (law : String → Law K) (circ : List (Elem K)) : Prop :=
  ∀ id n1 n2 a b c, Elem.NL id n1 n2 a b c ∈ circ → ∀ v, 0 ≤ v * (law id).i v

/-- and at all voltages other than zero they take some -/
def Eats (law : String → Law K) (circ : List (Elem K)) : Prop :=
  ∀ id n1 n2 a b c, Elem.NL id n1 n2 a b c ∈ circ → ∀ v, v ≠ 0 → 0 < v * (law id).i v

theorem Eats.takes {law : String → Law K} {circ : List (Elem K)} (h : Eats law circ) : Takes law circ := by
  intro id n1 n2 a b c hin v
  by_cases h0 : v = 0
  · rw [h0, zero_mul]
  · exact (h id n1 n2 a b c hin v h0).le

theorem cut_device {f : K → K} (hf : Cut f) {a b i : K} (hi : 0 ≤ (a - b) * i) : 0 ≤ (f a - f b) * i := by
  by_cases h0 : f a - f b = 0
  · rw [h0, zero_mul]
  have h1 : 0 < (f a - f b) * (a - b) := lt_of_lt_of_le (mul_self_pos.2 h0) (hf.grow a b)
  have h2 : a - b ≠ 0 := fun h => by rw [h, mul_zero] at h1; exact lt_irrefl _ h1
  have h3 : (f a - f b) * i * ((a - b) * (a - b)) = ((f a - f b) * (a - b)) * ((a - b) * i) := by ring
  have h4 : 0 ≤ (f a - f b) * i * ((a - b) * (a - b)) := by rw [h3]; exact mul_nonneg h1.le hi
  exact nonneg_of_mul_nonneg_left h4 (mul_self_pos.2 h2)

/-- what is cut from the nodes takes no power, `J` being the currents of the devices -/
theorem cut_flow {nv m : Nat} {circ : List (Elem K)} {s : Sys K} {g : K} {J : String → Nat → Nat → K} (hnv : 0 < nv)
    (hg : 0 ≤ g) (he : ∀ e ∈ circ, NodesLt nv e) (hp : ∀ e ∈ circ, Part e) (hpos : ∀ e ∈ circ, Positive e)
    (h : generate circ nv = .ok s) (hm : s.size = m + 1) {f : K → K} (hf : Cut f) {z : Fin m → K}
    (hl : ∀ id n1 n2 a b c, Elem.NL id n1 n2 a b c ∈ circ → 0 ≤ (Rlc.ext z n1 - Rlc.ext z n2) * J id n1 n2)
    (hz : ∀ i : Fin m, (reduce m s.M + Op.gminMat (nv - 1) g).mulVec z i + s.N (i.val + 1) +
      devSum (fun id n1 n2 => inj n1 n2 (J id n1 n2) (i.val + 1)) circ = 0)
    (hV : ∀ id n1 n2 v, Elem.V id n1 n2 v ∈ circ → Rlc.ext z n1 - Rlc.ext z n2 = staticVal v →
      f (Rlc.ext z n1) = f (Rlc.ext z n2))
    (hI : ∀ id n1 n2 v, Elem.I id n1 n2 v ∈ circ → 0 ≤ staticVal v * (f (Rlc.ext z n1) - f (Rlc.ext z n2))) :
    (∀ r < nv, g * f (Rlc.ext z r) = 0) ∧
    (∀ id n1 n2 v, Elem.R id n1 n2 v ∈ circ → f (Rlc.ext z n1) = f (Rlc.ext z n2)) ∧
    (∀ (j : Nat) (e : Elem K), (vdes (lin circ))[j]? = some e → f (Rlc.ext z (term e).1) = f (Rlc.ext z (term e).2)) ∧
    ∀ id n1 n2 a b c, Elem.NL id n1 n2 a b c ∈ circ →
      (f (Rlc.ext z n1) - f (Rlc.ext z n2)) * J id n1 n2 = 0 := by
  set x := Rlc.ext z with hxz
  rw [generate_lin hp] at h
  have hin' : ∀ e, e ∈ lin circ → e ∈ circ := fun e hm => (List.mem_filter.1 hm).1
  have hle : ∀ e ∈ lin circ, NodesLt nv e := fun e hm => he e (hin' e hm)
  have hlp := lin_two hp
  have hx : Solution nv s.size s.M (fun _ _ => 0) (fun r => s.N r + devSum (fun id n1 n2 => inj n1 n2 (J id n1 n2) r) circ) 0 g x := by
    rw [hm]
    refine (solution_iff hnv s.M _ g z).1 ?_
    funext i
    have := hz i
    rw [Pi.add_apply, Pi.zero_apply]
    simp only [Rlc.reduceV]
    linear_combination this
  obtain ⟨hS, hn, hb⟩ := rows_linear hle hlp h x
  set y : Vec K := fun r => if r < nv then f (x r) else 0 with hy
  have y0 : y 0 = 0 := by simp [hy, hnv, hx.1, hf.zero]
  have yn : ∀ r < nv, y r = f (x r) := fun r hr => by simp [hy, hr]
  have yb : ∀ j, y (nv + j) = 0 := fun j => by simp [hy]
  have tl : ∀ e ∈ circ, (term e).1 < nv ∧ (term e).2 < nv := fun e hm => (he e hm).term_lt' hnv
  have cb : ∀ j, devSum (fun id n1 n2 => inj n1 n2 (J id n1 n2) (nv + j)) circ = 0 := fun j => by
    rw [devSum_congr (g := fun _ _ _ => 0) circ fun id n1 n2 a b c hin => ?_, devSum_none]
    have := he _ hin
    simp only [NodesLt] at this
    rw [inj, if_neg (by omega), if_neg (by omega), sub_zero]
  have br : ∀ (j : Nat) (e : Elem K), (vdes (lin circ))[j]? = some e → f (x (term e).1) = f (x (term e).2) := by
    intro j e hj
    have hin : e ∈ lin circ := (List.mem_filter.1 (List.mem_of_getElem? hj)).1
    have hv : e.vde = true := (List.mem_filter.1 (List.mem_of_getElem? hj)).2
    have hlt := (List.getElem?_eq_some_iff.mp hj).1
    have h1 := hx.2 (nv + j) (by omega) (by omega)
    beta_reduce at h1
    rw [if_neg (by omega), (hb j e hj).1, (hb j e hj).2, cb] at h1
    have h3 := hlp e hin
    cases e <;> simp only [TwoPole] at h3 <;> simp only [Elem.vde, Bool.false_eq_true] at hv <;>
      simp only [term]
    · simp [Mna.law] at h1
      rw [sub_eq_zero.1 h1]
    · rename_i id n1 n2 v
      refine hV id n1 n2 v (hin' _ hin) ?_
      simp [Mna.law] at h1
      linear_combination h1
  have w := solution_weighed (by omega) hx y y0
  have split : ∑ r ∈ Finset.range s.size, y r * (s.N r + devSum (fun id n1 n2 => inj n1 n2 (J id n1 n2) r) circ) =
      ∑ r ∈ Finset.range s.size, y r * s.N r +
      devSum (fun id n1 n2 => (y n1 - y n2) * J id n1 n2) circ := by
    simp only [mul_add, Finset.sum_add_distrib, mul_devSum]
    rw [sum_devSum]
    congr 1
    refine devSum_congr circ fun id n1 n2 a b c hin => ?_
    have ht := he _ hin
    simp only [NodesLt] at ht
    rw [sum_inj y n1 n2 _ (by omega) (by omega)]
  rw [static_bil hnv hle hlp h, split, drive_dc hnv hle hlp h, drive] at w
  have c0 : brSum (cross nv y x) (lin circ) 0 = 0 := brSum_zero _ _ _ fun j e hj => by
    have hin : e ∈ lin circ := (List.mem_filter.1 (List.mem_of_getElem? hj)).1
    have h2 := tl e (hin' e hin)
    rw [Nat.zero_add, cross, yn _ h2.1, yn _ h2.2, br j e hj, yb]
    ring
  have c1 : brSum (srcBranch staticVal nv y) (lin circ) 0 = 0 := brSum_zero _ _ _ fun j e _ => by
    cases e <;> simp [srcBranch, yb]
  have c2 : 0 ≤ ((lin circ).map (srcNode staticVal y)).sum := sum_nonneg' _ _ fun e hm => by
    have h2 := tl e (hin' e hm)
    cases e <;> simp only [srcNode] <;> try exact le_refl _
    simp only [term] at h2
    rw [yn _ h2.1, yn _ h2.2]
    exact hI _ _ _ _ (hin' _ hm)
  have c3' : ∀ r ∈ Finset.range nv, 0 ≤ y r * x r := fun r hr => by
    rw [yn _ (Finset.mem_range.1 hr)]
    have := hf.grow (x r) 0
    rw [hf.zero, sub_zero, sub_zero] at this
    exact le_trans (mul_self_nonneg _) this
  have c3 : 0 ≤ ∑ r ∈ Finset.range nv, y r * x r := Finset.sum_nonneg c3'
  have rpos : ∀ e ∈ lin circ, 0 ≤ resForm y x e := by
    intro e hm
    have h2 := tl e (hin' e hm)
    have h3 := hpos e (hin' e hm)
    cases e <;> simp only [resForm] <;> try exact le_refl _
    simp only [term, Positive] at h2 h3
    rw [yn _ h2.1, yn _ h2.2]
    exact div_nonneg (le_trans (mul_self_nonneg _) (hf.grow _ _)) h3.le
  have c4 : 0 ≤ ((lin circ).map (resForm y x)).sum := sum_nonneg' _ _ rpos
  have c5 : 0 ≤ g * ∑ r ∈ Finset.range nv, y r * x r := mul_nonneg hg c3
  have dpos : ∀ id n1 n2 a b c, Elem.NL id n1 n2 a b c ∈ circ → 0 ≤ (y n1 - y n2) * J id n1 n2 := by
    intro id n1 n2 a b c hin
    have h2 := he _ hin
    simp only [NodesLt] at h2
    rw [yn _ h2.1, yn _ h2.2]
    exact cut_device hf (hl id n1 n2 a b c hin)
  have c6 := devSum_nonneg circ dpos
  rw [c0, c1] at w
  have z1 : ((lin circ).map (resForm y x)).sum = 0 := by linarith
  have z2 : g * ∑ r ∈ Finset.range nv, y r * x r = 0 := by linarith
  have z3 : devSum (fun id n1 n2 => (y n1 - y n2) * J id n1 n2) circ = 0 := by linarith
  refine ⟨fun r hr => ?_, fun id n1 n2 v hm => ?_, br, fun id n1 n2 a b c hin => ?_⟩
  · rcases mul_eq_zero.1 z2 with hz | hz
    · rw [hz, zero_mul]
    · have h1 := (Finset.sum_eq_zero_iff_of_nonneg c3').1 hz r (Finset.mem_range.2 hr)
      have := hf.grow (x r) 0
      rw [hf.zero, sub_zero, sub_zero, ← yn r hr, h1] at this
      rw [← yn r hr, mul_self_eq_zero.1 (le_antisymm this (mul_self_nonneg _)), mul_zero]
  · have hm' : Elem.R id n1 n2 v ∈ lin circ := List.mem_filter.2 ⟨hm, rfl⟩
    have h1 : resForm y x (.R id n1 n2 v) = 0 := by
      exact List.all_zero_of_le_zero_le_of_sum_eq_zero (l := (lin circ).map (resForm y x))
        (by intro a ha; obtain ⟨e, h', rfl⟩ := List.mem_map.1 ha; exact rpos e h') z1 (List.mem_map.2 ⟨_, hm', rfl⟩)
    have h2 := tl _ hm
    have h3 := hpos _ hm
    simp only [resForm, term, Positive] at h1 h2 h3
    rw [div_eq_zero_iff, yn _ h2.1, yn _ h2.2] at h1
    have := hf.grow (x n1) (x n2)
    rw [h1.resolve_right h3.ne'] at this
    exact sub_eq_zero.1 (mul_self_eq_zero.1 (le_antisymm this (mul_self_nonneg _)))
  · have := devSum_zero (f := fun id n1 n2 => (y n1 - y n2) * J id n1 n2) circ dpos z3 hin
    have h2 := he _ hin
    simp only [NodesLt] at h2
    rwa [yn _ h2.1, yn _ h2.2] at this

/-- the cut voltages vanish: with Gmin -/
theorem cut_gmin {nv : Nat} {g : K} (hg : 0 < g) {f : K → K} {x : Vec K} (h : ∀ r < nv, g * f (x r) = 0) :
    ∀ r < nv, f (x r) = 0 := fun r hr => (mul_eq_zero.1 (h r hr)).resolve_left hg.ne'

/-- the cut voltages vanish: without Gmin -/
theorem cut_strict {nv m : Nat} {circ : List (Elem K)} {s : Sys K} {J : String → Nat → Nat → K} (hnv : 0 < nv)
    (he : ∀ e ∈ circ, NodesLt nv e) (hp : ∀ e ∈ circ, Part e)
    (h : generate circ nv = .ok s) (hm : s.size = m + 1) (hb : Bridged m nv circ) {f : K → K} (hf0 : f 0 = 0)
    {z : Fin m → K}
    (hl : ∀ id n1 n2 a b c, Elem.NL id n1 n2 a b c ∈ circ → Rlc.ext z n1 - Rlc.ext z n2 ≠ 0 →
      0 < (Rlc.ext z n1 - Rlc.ext z n2) * J id n1 n2)
    (h2 : ∀ id n1 n2 v, Elem.R id n1 n2 v ∈ circ → f (Rlc.ext z n1) = f (Rlc.ext z n2))
    (h3 : ∀ (j : Nat) (e : Elem K), (vdes (lin circ))[j]? = some e → f (Rlc.ext z (term e).1) = f (Rlc.ext z (term e).2))
    (h4 : ∀ id n1 n2 a b c, Elem.NL id n1 n2 a b c ∈ circ →
      (f (Rlc.ext z n1) - f (Rlc.ext z n2)) * J id n1 n2 = 0) :
    ∀ r < nv, f (Rlc.ext z r) = 0 := by
  have hl' := h
  rw [generate_lin hp] at hl'
  have hle : ∀ e ∈ lin circ, NodesLt nv e := fun e hm => he e (List.mem_filter.1 hm).1
  set y : Fin m → K := fun i => if i.val + 1 < nv then f (z i) else 0 with hy
  obtain ⟨hS, hn, hbr⟩ := rows_linear hle (lin_two hp) hl' (Rlc.ext y)
  have yn : ∀ r < nv, Rlc.ext y r = f (Rlc.ext z r) := fun r hr => by
    cases r with
    | zero => exact hf0.symm
    | succ r => simp [Rlc.ext, hy, hr, show r < m by omega]
  have yb : ∀ j, Rlc.ext y (nv + j) = 0 := fun j => by
    obtain ⟨k, rfl⟩ : ∃ k, nv = k + 1 := ⟨nv - 1, by omega⟩
    rw [show k + 1 + j = (k + j) + 1 by omega]
    simp only [Rlc.ext, hy]
    split_ifs <;> first | rfl | omega
  have tl : ∀ e ∈ circ, (term e).1 < nv ∧ (term e).2 < nv := fun e hm => (he e hm).term_lt' hnv
  have y0 : y = 0 := by
    refine bridged_zero he hp h hm hb (fun id n1 n2 a b c hin => ?_) ?_
    · have h5 := he _ hin
      simp only [NodesLt] at h5
      rw [yn _ h5.1, yn _ h5.2]
      by_cases hv : Rlc.ext z n1 - Rlc.ext z n2 = 0
      · rw [sub_eq_zero.1 hv, sub_self]
      · refine (mul_eq_zero.1 (h4 id n1 n2 a b c hin)).resolve_right fun h0 => ?_
        have := hl id n1 n2 a b c hin hv
        rw [h0, mul_zero] at this
        exact lt_irrefl _ this
    · funext i
      have hi := i.isLt
      rw [reduce_row, Pi.zero_apply, ← hm]
      by_cases hlt : i.val + 1 < nv
      · rw [(hn _ hlt).1, kcl_none _ _ 0 _ (lin_two hp) yb]
        intro id n1 n2 v hin
        have hin' := (List.mem_filter.1 hin).1
        have h5 := tl _ hin'
        simp only [term] at h5
        rw [yn _ h5.1, yn _ h5.2, h2 id n1 n2 v hin', sub_self]
      · obtain ⟨k, hk'⟩ : ∃ k, i.val + 1 = nv + k := ⟨i.val + 1 - nv, by omega⟩
        have hk : k < (vdes (lin circ)).length := by omega
        have hj := List.getElem?_eq_getElem hk
        rw [hk', (hbr k _ hj).1]
        have hin : (vdes (lin circ))[k] ∈ lin circ := (List.mem_filter.1 (List.getElem_mem hk)).1
        have hv : ((vdes (lin circ))[k]).vde = true := (List.mem_filter.1 (List.getElem_mem hk)).2
        have h1 := lin_two hp _ hin
        have h5 := tl _ (List.mem_filter.1 hin).1
        have h6 := h3 k _ hj
        rw [← yn _ h5.1, ← yn _ h5.2] at h6
        revert hv h1 h6
        cases (vdes (lin circ))[k] <;> simp [TwoPole, Mna.law, Elem.vde, term]
        · intro _ h2; rw [h2, sub_self]
        · intro _ h2; rw [h2, sub_self]
  intro r hr
  rw [← yn r hr, y0]
  cases r <;> simp [Rlc.ext]

/-- the nodes have unique voltages: either Gmin is in the matrix, or the devices take power at every voltage other than
zero and the circuit with resistors in their place is regular -/
def Held (m nv : Nat) (g : K) (law : String → Law K) (circ : List (Elem K)) : Prop :=
  0 < g ∨ (Eats law circ ∧ Bridged m nv circ)

theorem cut_all {nv m : Nat} {circ : List (Elem K)} {s : Sys K} {g : K} {law : String → Law K} (hnv : 0 < nv)
    (hg : 0 ≤ g) (he : ∀ e ∈ circ, NodesLt nv e) (hp : ∀ e ∈ circ, Part e) (hpos : ∀ e ∈ circ, Positive e)
    (ha : ∀ e ∈ circ, Apart e) (hl : Takes law circ) (h : generate circ nv = .ok s) (hm : s.size = m + 1)
    {f : K → K} (hf : Cut f) {z : Fin m → K} (hz : IsPoint nv g law circ s z) (hu : Held m nv g law circ)
    (hV : ∀ id n1 n2 v, Elem.V id n1 n2 v ∈ circ → Rlc.ext z n1 - Rlc.ext z n2 = staticVal v →
      f (Rlc.ext z n1) = f (Rlc.ext z n2))
    (hI : ∀ id n1 n2 v, Elem.I id n1 n2 v ∈ circ → 0 ≤ staticVal v * (f (Rlc.ext z n1) - f (Rlc.ext z n2))) :
    ∀ r < nv, f (Rlc.ext z r) = 0 := by
  obtain ⟨h1, h2, h3, h4⟩ := cut_flow (J := fun id n1 n2 => (law id).i (Rlc.ext z n1 - Rlc.ext z n2)) hnv hg he hp hpos h hm
    hf (fun id n1 n2 a b c hin => hl id n1 n2 a b c hin _) (fun i => by
      have := hz i
      rwa [vecT_eq law ha] at this) hV hI
  rcases hu with h0 | ⟨h5, h6⟩
  · exact cut_gmin h0 h1
  · exact cut_strict hnv he hp h hm h6 hf.zero (fun id n1 n2 a b c hin => h5 id n1 n2 a b c hin _) h2 h3 h4

/-- C150: all node voltages of an operating point are between those of the sources and ground. -/
theorem C150_between {nv m : Nat} {circ : List (Elem K)} {s : Sys K} {g lo hi : K} {law : String → Law K} (hnv : 0 < nv)
    (hg : 0 ≤ g) (he : ∀ e ∈ circ, NodesLt nv e) (hp : ∀ e ∈ circ, Part e) (hpos : ∀ e ∈ circ, Positive e)
    (ha : ∀ e ∈ circ, Apart e) (hl : Takes law circ) (h : generate circ nv = .ok s) (hm : s.size = m + 1)
    (hf : ∀ e ∈ circ, Fixes lo hi e) (hlo : lo ≤ 0) (hhi : 0 ≤ hi)
    {z : Fin m → K} (hz : IsPoint nv g law circ s z) (hu : Held m nv g law circ) :
    ∀ i : Fin m, i.val < nv - 1 → lo ≤ z i ∧ z i ≤ hi := by
  have cut : ∀ f : K → K, Cut f → (∀ t, lo ≤ t → t ≤ hi → f t = 0) → ∀ k < nv, f (Rlc.ext z k) = 0 := by
    intro f hcut hin
    refine cut_all hnv hg he hp hpos ha hl h hm hcut hz hu ?_ ?_
    · intro id n1 n2 v hmem hv
      rcases hf _ hmem with ⟨rfl, h1, h2⟩ | ⟨rfl, h1, h2⟩
      · rw [show Rlc.ext z 0 = 0 from rfl, sub_zero] at hv
        rw [show Rlc.ext z 0 = 0 from rfl, hv, hcut.zero]
        exact hin _ h1 h2
      · rw [show Rlc.ext z 0 = 0 from rfl, zero_sub] at hv
        rw [show Rlc.ext z 0 = 0 from rfl, hcut.zero, hin _ (by rw [← neg_neg (Rlc.ext z n2), hv]; exact h1)
          (by rw [← neg_neg (Rlc.ext z n2), hv]; exact h2)]
    · intro id n1 n2 v hmem
      exact (hf _ hmem).elim
  intro i hi'
  have ex : Rlc.ext z (i.val + 1) = z i := by simp [Rlc.ext, i.isLt]
  have a := cut _ (cut_above hhi) (fun t _ h2 => max_eq_right (by linarith)) (i.val + 1) (by omega)
  have b := cut _ (cut_below hlo) (fun t h1 _ => min_eq_right (by linarith)) (i.val + 1) (by omega)
  simp only [ex] at a b
  have a' := max_eq_right_iff.1 a
  have b' := min_eq_right_iff.1 b
  exact ⟨by linarith, by linarith⟩

/-- all sources are off -/
def Off : Elem K → Prop
  | .V _ _ _ v | .I _ _ _ v => staticVal v = 0
  | _ => True

/-- C150: when all sources are off, all node voltages are zero. -/
theorem C150_rest {nv m : Nat} {circ : List (Elem K)} {s : Sys K} {g : K} {law : String → Law K} (hnv : 0 < nv)
    (hg : 0 ≤ g) (he : ∀ e ∈ circ, NodesLt nv e) (hp : ∀ e ∈ circ, Part e) (hpos : ∀ e ∈ circ, Positive e)
    (ha : ∀ e ∈ circ, Apart e) (hl : Takes law circ) (h : generate circ nv = .ok s) (hm : s.size = m + 1)
    (hf : ∀ e ∈ circ, Off e) {z : Fin m → K} (hz : IsPoint nv g law circ s z) (hu : Held m nv g law circ) :
    ∀ i : Fin m, i.val < nv - 1 → z i = 0 := by
  have cut : Cut fun t : K => t := ⟨rfl, fun a b => le_refl _⟩
  intro i hi'
  have := cut_all hnv hg he hp hpos ha hl h hm cut hz hu (fun id n1 n2 v hin hv => by
    have h0 : staticVal v = 0 := hf _ hin
    rw [h0] at hv
    exact sub_eq_zero.1 hv) (fun id n1 n2 v hin => by
    have h0 : staticVal v = 0 := hf _ hin
    rw [h0, zero_mul]) (i.val + 1) (by omega)
  simpa [Rlc.ext, i.isLt] using this

omit [LinearOrder K] [IsStrictOrderedRing K] in
theorem map_sub (p q : Elem K → K) (l : List (Elem K)) :
    (l.map fun e => p e - q e).sum = (l.map p).sum - (l.map q).sum := by
  induction l with
  | nil => simp
  | cons e t ih => simp only [List.map_cons, List.sum_cons, ih]; ring

/-- the power of an independent source, positive if it is taken -/
def srcPower (law : String → Law K) (circ : List (Elem K)) (nv : Nat) (x : Vec K) (e : Elem K) : K :=
  match e with
  | .V .. | .I .. => OpInfo.power law circ nv x e
  | _ => 0

/-- C150: the sources together deliver power, at least the power of each resistor. -/
theorem C150_sources {nv m : Nat} {circ : List (Elem K)} {s : Sys K} {g : K} {law : String → Law K} (hnv : 0 < nv)
    (hg : 0 ≤ g) (he : ∀ e ∈ circ, NodesLt nv e) (hp : ∀ e ∈ circ, Part e) (hpos : ∀ e ∈ circ, Positive e)
    (ha : ∀ e ∈ circ, Apart e) (hu : Mna.UniqueVde circ) (hf : ∀ e ∈ circ, OpInfo.Fixed e) (hl : Takes law circ)
    (h : generate circ nv = .ok s) (hm : s.size = m + 1) {z : Fin m → K} (hz : IsPoint nv g law circ s z) :
    (circ.map (srcPower law circ nv (Rlc.ext z))).sum ≤ 0 ∧
    ∀ id n1 n2 r, Elem.R id n1 n2 r ∈ circ →
      (Rlc.ext z n1 - Rlc.ext z n2) * ((Rlc.ext z n1 - Rlc.ext z n2) / r) ≤
        -(circ.map (srcPower law circ nv (Rlc.ext z))).sum := by
  have t := OpInfo.point_power hnv he hp ha hu hf h hm hz
  set x := Rlc.ext z
  have p2 : 0 ≤ g * ∑ r ∈ Finset.range nv, x r * x r := mul_nonneg hg (Finset.sum_nonneg fun r _ => mul_self_nonneg _)
  have dp : ∀ e ∈ circ, 0 ≤ OpInfo.power law circ nv x e - srcPower law circ nv x e := by
    intro e hin
    have h1 := hpos e hin
    cases e <;> simp only [srcPower, OpInfo.power, sub_self, sub_zero, le_refl]
    · rw [← mul_div_assoc]
      exact div_nonneg (mul_self_nonneg _) (le_of_lt h1)
    · exact hl _ _ _ _ _ _ hin _
  have e1 : (circ.map fun e => OpInfo.power law circ nv x e - srcPower law circ nv x e).sum =
      (circ.map (OpInfo.power law circ nv x)).sum - (circ.map (srcPower law circ nv x)).sum :=
    map_sub _ _ circ
  have dn : ∀ v ∈ circ.map fun e => OpInfo.power law circ nv x e - srcPower law circ nv x e, 0 ≤ v := by
    intro v hv
    obtain ⟨e, hin, rfl⟩ := List.mem_map.1 hv
    exact dp e hin
  have p1 := List.sum_nonneg dn
  refine ⟨by linarith, fun id n1 n2 r hin => ?_⟩
  have := List.single_le_sum dn _ (List.mem_map.2 ⟨_, hin, rfl⟩)
  rw [e1] at this
  have k : OpInfo.power law circ nv x (.R id n1 n2 r) - srcPower law circ nv x (.R id n1 n2 r) =
      (x n1 - x n2) * ((x n1 - x n2) / r) := sub_zero _
  rw [k] at this
  linarith

end Field

/-! ### Examples -/

/-- two resistors and a device in a bridge, driven by 2 V -/
def bulbs (v : ℚ) : List (Elem ℚ) :=
  [.V "V1" 1 0 ⟨some v, none, false, none⟩, .R "R1" 1 2 1, .NL "B1" 2 0 none [(2, 0)] [(2, 0)]]

/-- a device whose current grows with the third power of the voltage -/
def cube : String → Law ℚ := fun _ => ⟨fun v => v ^ 3, fun v => 3 * v ^ 2⟩

theorem cube_eats (circ : List (Elem ℚ)) : Eats cube circ := by
  intro id n1 n2 a b c _ v hv
  have : v * v ^ 3 = (v * v) * (v * v) := by ring
  change 0 < v * v ^ 3
  rw [this]
  have := mul_self_pos.2 hv
  positivity

theorem bulbs_sound (v : ℚ) : (∀ e ∈ bulbs v, NodesLt 3 e) ∧ (∀ e ∈ bulbs v, Part e) ∧ (∀ e ∈ bulbs v, Positive e) ∧
    (∀ e ∈ bulbs v, Apart e) ∧ ∀ e ∈ bulbs v, OpInfo.Fixed e := by
  simp [bulbs, NodesLt, Devices.Part, TwoPole, Elem.nonlinear, Positive, Apart, OpInfo.Fixed]

theorem bulbs_bridged (v : ℚ) : Bridged 3 3 (bulbs v) := by
  refine ⟨sysOf ((bulbs v).map bridged) 3, rfl, ?_⟩
  have : (Rlc.reduce 3 (sysOf ((bulbs v).map bridged) 3).M).det = -2 := by
    rw [Matrix.det_fin_three]
    simp [Rlc.reduce, sysOf, bulbs, bridged, generate, loop, stamp1, stamp2, stamp3, Mat.add, Mat.put, Vec.add, Vec.put,
      Src.eval]
    norm_num
  rw [this]
  norm_num

/-- the operating point at 2 V -/
theorem bulbs_point : IsPoint 3 0 cube (bulbs 2) (sysOf (bulbs 2) 3) ![2, 1, -1] := by
  unfold IsPoint
  decide +kernel

example (z : Fin 3 → ℚ) (hz : IsPoint 3 0 cube (bulbs 2) (sysOf (bulbs 2) 3) z) : 0 ≤ z 1 ∧ z 1 ≤ 2 := by
  obtain ⟨h1, h2, h3, h4, -⟩ := bulbs_sound 2
  exact C150_between (lo := 0) (hi := 2) (by norm_num) le_rfl h1 h2 h3 h4 (cube_eats _).takes rfl rfl
    (by simp [bulbs, Fixes, staticVal]) le_rfl (by norm_num) hz (.inr ⟨cube_eats _, bulbs_bridged 2⟩) 1
    (by decide)

example (z : Fin 3 → ℚ) (hz : IsPoint 3 0 cube (bulbs 0) (sysOf (bulbs 0) 3) z) : z 0 = 0 ∧ z 1 = 0 := by
  obtain ⟨h1, h2, h3, h4, -⟩ := bulbs_sound 0
  have := C150_rest (by norm_num) le_rfl h1 h2 h3 h4 (cube_eats _).takes rfl rfl
    (by simp [bulbs, Off, staticVal]) hz (.inr ⟨cube_eats _, bulbs_bridged 0⟩)
  exact ⟨this 0 (by decide), this 1 (by decide)⟩

example : Mna.UniqueVde (bulbs 2) ∧ (1 : ℚ) ≤ -((bulbs 2).map (srcPower cube (bulbs 2) 3 (Rlc.ext ![2, 1, -1]))).sum := by
  obtain ⟨h1, h2, h3, h4, h5⟩ := bulbs_sound 2
  have hu : Mna.UniqueVde (bulbs 2) := by decide
  refine ⟨hu, ?_⟩
  have := (C150_sources (by norm_num) le_rfl h1 h2 h3 h4 hu h5 (cube_eats _).takes rfl rfl bulbs_point).2 "R1" 1 2 1
    (by simp [bulbs])
  refine le_trans (le_of_eq ?_) this
  simp [Rlc.ext]
  norm_num

example : ((bulbs 2).map (srcPower cube (bulbs 2) 3 (Rlc.ext ![2, 1, -1]))).sum = -2 := by decide +kernel

/-! ### The coded diode -/

/-- a resistor and a diode, no source -/
def alone (r : ℝ) : List (Elem ℝ) := [.R "R1" 1 0 r, .NL "D1" 1 0 none [(1, 0)] [(1, 0)]]

/-- C150, disagreement: the current of the diode model is `IS` at 0 V. A diode and a resistor without any source have an
operating point where the resistor takes power, and no operating point is at rest. -/
theorem C150_diode_refuted (r : ℝ) (hr : 0 < r) :
    generate (alone r) 2 = .ok (sysR (alone r) 2) ∧ (∀ e ∈ alone r, Off e) ∧ Bridged 1 2 (alone r) ∧
    IsDiode (1 / 10 ^ 12) (plainLaw "D1") Diode.default 1 ∧
    (∃ z : Fin 1 → ℝ, IsPoint 2 0 plainLaw (alone r) (sysR (alone r) 2) z ∧ z 0 < 0 ∧ 0 < z 0 * (z 0 / r)) ∧
    ∀ z : Fin 1 → ℝ, IsPoint 2 0 plainLaw (alone r) (sysR (alone r) 2) z → z 0 ≠ 0 := by
  have hM : (Rlc.reduce 1 (sysR (alone r) 2).M) 0 0 = 1 / r := by
    simp [Rlc.reduce, sysR, alone, generate, loop, stamp1, stamp2, stamp3, Mat.add, Mat.put, Vec.add, Src.eval]
  have hN : (sysR (alone r) 2).N 1 = 0 := by
    simp [sysR, alone, generate, loop, stamp1, stamp2, stamp3, Mat.add, Mat.put, Vec.add, Src.eval]
  have hap : ∀ e ∈ alone r, Apart e := by simp [alone, Apart]
  have row : ∀ z : Fin 1 → ℝ, IsPoint 2 0 plainLaw (alone r) (sysR (alone r) 2) z ↔
      z 0 / r + Diode.default.getI 1 (z 0) = 0 := by
    intro z
    have hc : currents plainLaw (alone r) z 1 = Diode.default.getI 1 (z 0) := by
      simp [currents, alone, devSum, devTerm, inj, Rlc.ext, plainLaw]
    have hm : ∀ i : Fin 1, (Rlc.reduce 1 (sysR (alone r) 2).M + Op.gminMat (2 - 1) 0).mulVec z i = 1 / r * z 0 := by
      intro i
      rw [Fin.eq_zero i, ← hM]
      simp [Matrix.mulVec, dotProduct, Op.gminMat]
    unfold IsPoint
    refine ⟨fun h => ?_, fun h i => ?_⟩
    · have h0 := h 0
      rw [hm, vecT_eq _ hap] at h0
      change _ + (sysR (alone r) 2).N 1 + currents plainLaw (alone r) z 1 = 0 at h0
      rw [hN, hc] at h0
      linear_combination h0
    · rw [hm, vecT_eq _ hap, Fin.eq_zero i]
      change _ + (sysR (alone r) 2).N 1 + currents plainLaw (alone r) z 1 = 0
      rw [hN, hc]
      linear_combination h
  have hI0 : 0 < Diode.default.getI 1 0 :=
    (Diode.C42_zero_refuted _ plain_diode.ok 1 one_pos (by simp [Diode.default])).2.1
  refine ⟨rfl, by simp [alone, Off], ⟨sysR ((alone r).map bridged) 2, rfl, ?_⟩, plain_diode, ?_, ?_⟩
  · rw [Matrix.det_fin_one]
    have : Rlc.reduce 1 (sysR ((alone r).map bridged) 2).M 0 0 = 1 / r + 1 := by
      simp [Rlc.reduce, sysR, alone, bridged, generate, loop, stamp1, stamp2, stamp3, Mat.add, Mat.put, Vec.add, Src.eval]
    rw [this]
    positivity
  · set F : ℝ → ℝ := fun v => v / r + Diode.default.getI 1 v with hF
    have hcont : ContinuousOn F (Set.Icc (-(r * Diode.default.getI 1 0)) 0) := by
      intro v hv
      have hvt : (0 : ℝ) < Diode.default.VT := plain_diode.ok.VT
      have hd := Diode.C42_derivative_partial Diode.default 0 1 v rfl rfl rfl
        (lt_of_le_of_lt (div_nonpos_of_nonpos_of_nonneg hv.2 (mul_pos plain_diode.ok.N hvt).le) (by norm_num))
        (lt_of_le_of_lt (div_nonpos_of_nonpos_of_nonneg hv.2 (mul_pos plain_diode.ok.NR hvt).le) (by norm_num))
      exact (((continuous_id.div_const r).continuousAt).add hd.continuousAt).continuousWithinAt
    have hneg : -(r * Diode.default.getI 1 0) < 0 := by have := mul_pos hr hI0; linarith
    have h1 : F (-(r * Diode.default.getI 1 0)) < 0 := by
      have := Diode.C42_increasing Diode.default plain_diode.ok 1 one_pos hneg
      have e : -(r * Diode.default.getI 1 0) / r = -Diode.default.getI 1 0 := by field_simp
      simp only [hF, e]
      linarith
    have h2 : 0 < F 0 := by simpa [hF] using hI0
    obtain ⟨v, hv, hv0⟩ := intermediate_value_Icc hneg.le hcont ⟨h1.le, h2.le⟩
    have hv' : v < 0 := lt_of_le_of_ne hv.2 fun h => by rw [h] at hv0; rw [hv0] at h2; exact lt_irrefl _ h2
    refine ⟨![v], (row _).2 hv0, hv', ?_⟩
    change 0 < v * (v / r)
    rw [← mul_div_assoc]
    exact div_pos (mul_pos_of_neg_of_neg hv' hv') hr
  · intro z hz h0
    have := (row z).1 hz
    rw [h0, zero_div, zero_add] at this
    exact hI0.ne' this

end Verif.Rest
