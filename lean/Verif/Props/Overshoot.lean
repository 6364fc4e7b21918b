import Verif.Props.Rest
import Verif.Props.Converge
import Verif.Props.MnaSrc

/-!
C187: with implicit Euler no node voltage of an RC circuit leaves the range of the sources and of the starting point.
-/

namespace Verif.Overshoot
open Verif.Circuit Verif.Mna Verif.Dyn Verif.Rlc Verif.Recip Verif.Bound Verif.Tran Verif.Conserve Verif.Converge Verif.Op Matrix

/-- resistors, capacitors to ground, and sources to ground which at time `t` hold their node between `lo` and `hi` -/
def Within (lo hi t : ℝ) : Elem ℝ → Prop
  | .R .. => True
  | .C _ n1 n2 _ _ => n1 = 0 ∨ n2 = 0
  | .V _ n1 n2 v => (n2 = 0 ∧ n1 ≠ 0 ∧ lo ≤ srcVal (some t) v ∧ srcVal (some t) v ≤ hi) ∨
      (n1 = 0 ∧ n2 ≠ 0 ∧ lo ≤ -srcVal (some t) v ∧ -srcVal (some t) v ≤ hi)
  | _ => False

theorem Within.two {lo hi t : ℝ} {e : Elem ℝ} (h : Within lo hi t e) : TwoPole e := by
  cases e <;> simp only [Within] at h <;> simp only [TwoPole]
  rcases h with ⟨rfl, h, -⟩ | ⟨rfl, h, -⟩
  · exact h
  · exact fun h' => h h'.symm

/-- without current sources the time-dependent part of the node equations is zero -/
theorem tt_node {nv : Nat} {time : Option ℝ} {circ : List (Elem ℝ)} {T : Vec ℝ} (he : ∀ e ∈ circ, NodesLt nv e)
    (hp : ∀ id n1 n2 v, Elem.I id n1 n2 v ∉ circ) (h : genTt circ nv time = .ok T) (r : Nat) (h0 : 0 < r) (hr : r < nv) : T r = 0 := by
  unfold genTt at h
  cases hl : Mna.loop (ttStep nv time) (⟨fun _ => 0, 0⟩ : TtState ℝ) circ with
  | error => rw [hl] at h; simp at h
  | ok s' =>
    rw [hl] at h
    simp only [Except.ok.injEq] at h
    subst h
    rw [tt_loop he (fun _ _ => rfl) hl r h0, zero_add]
    have key : ∀ (l : List (Elem ℝ)) (k : Nat), (∀ id n1 n2 v, Elem.I id n1 n2 v ∉ l) → ttSum nv time l k r = 0 := by
      intro l
      induction l with
      | nil => intros; rfl
      | cons e t ih =>
        intro k hk
        rw [ttSum, ih _ fun id n1 n2 v hin => hk id n1 n2 v (List.mem_cons_of_mem _ hin), add_zero]
        cases e <;> simp only [ttTerm]
        · rw [if_neg (by omega)]
        · exact absurd (List.mem_cons_self ..) (hk _ _ _ _)
    exact key circ 0 hp

/-- one step: what is cut from the nodes vanishes -/
theorem step_cut {nv m : Nat} {circ : List (Elem ℝ)} {s : Sys ℝ} {D : Mat ℝ} {cmin g h lo hi t : ℝ} {T : Vec ℝ} (hnv : 0 < nv)
    (hg : 0 ≤ g) (hc : 0 < cmin) (hh : 0 < h)
    (he : ∀ e ∈ circ, NodesLt nv e) (hp : ∀ e ∈ circ, Within lo hi t e) (hpos : ∀ e ∈ circ, Positive e)
    (hgen : generate circ nv = .ok s) (hm : s.size = m + 1) (hd : generateD circ nv (m + 1) cmin = .ok D)
    (hT : genTt circ nv (some t) = .ok T) {f : ℝ → ℝ} (hf : Cut f) (hin : ∀ v, lo ≤ v → v ≤ hi → f v = 0)
    {z p : Fin m → ℝ} (hq : ∀ r < nv, f (Rlc.ext z r) ≠ 0 → 0 < f (Rlc.ext z r) * (Rlc.ext z r - Rlc.ext p r))
    (hz : ∀ i : Fin m, (reduce m s.M + gminMat (nv - 1) g).mulVec z i + (reduce m D).mulVec ((1 / h) • (z - p)) i +
      s.N (i.val + 1) + T (i.val + 1) = 0) :
    ∀ r < nv, f (Rlc.ext z r) = 0 := by
  set x := Rlc.ext z with hxz
  set w := Rlc.ext ((1 / h) • (z - p)) with hw
  have hwr : ∀ r, w r = 1 / h * (x r - Rlc.ext p r) := fun r => by
    rw [hw, hxz]
    cases r with
    | zero => simp [Rlc.ext]
    | succ r => by_cases hr : r < m <;> simp [Rlc.ext, hr]
  have w0 : w 0 = 0 := rfl
  have htp : ∀ e ∈ circ, TwoPole e := fun e hm => (hp e hm).two
  have hx : Solution nv s.size s.M (fun _ _ => 0) (fun r => s.N r + (T r + mulVec (m + 1) D w r)) 0 g x := by
    rw [hm]
    refine (solution_iff hnv s.M _ g z).1 ?_
    funext i
    have h1 := hz i
    have h2 := reduce_row D ((1 / h) • (z - p)) i
    rw [h2] at h1
    rw [Pi.add_apply, Pi.zero_apply]
    simp only [Rlc.reduceV]
    linear_combination h1
  obtain ⟨hS, -, -⟩ := rows_linear he htp hgen x
  have hd' : generateD circ nv (nv + (vdes circ).length) cmin = .ok D := by rw [← hS, hm]; exact hd
  have hmS : m + 1 = nv + (vdes circ).length := by omega
  set y : Vec ℝ := fun r => if r < nv then f (x r) else 0 with hy
  have y0 : y 0 = 0 := by simp [hy, hnv, hx.1, hf.zero]
  have yn : ∀ r < nv, y r = f (x r) := fun r hr => by simp [hy, hr]
  have yb : ∀ j, y (nv + j) = 0 := fun j => by simp [hy]
  have tl : ∀ e ∈ circ, (term e).1 < nv ∧ (term e).2 < nv := fun e hm => (he e hm).term_lt' hnv
  have br : ∀ (j : Nat) (e : Elem ℝ), (vdes circ)[j]? = some e → f (x (term e).1) = f (x (term e).2) := by
    intro j e hj
    have hin' : e ∈ circ := (List.mem_filter.1 (List.mem_of_getElem? hj)).1
    have hv : e.vde = true := (List.mem_filter.1 (List.mem_of_getElem? hj)).2
    have hlt := (List.getElem?_eq_some_iff.mp hj).1
    have h1 := hx.2 (nv + j) (by omega) (by omega)
    obtain ⟨p1, p2⟩ := recip_static htp
    have h2 := C70_branch_equations hnv he p1 p2 hgen hT x j e hj
    have h4 := C08_branch_rows hnv he hd' w w0 j e hj
    rw [← hmS] at h4
    beta_reduce at h1
    rw [if_neg (by omega), h4] at h1
    have h3 := hp e hin'
    cases e <;> simp only [Within] at h3 <;> simp only [Elem.vde, Bool.false_eq_true] at hv
    simp only [Mna.law, flux] at h1 h2
    simp only [term]
    rcases h3 with ⟨rfl, -, h5, h6⟩ | ⟨rfl, -, h5, h6⟩
    · rw [hx.1, hf.zero]
      refine hin _ ?_ ?_ <;> rw [hx.1] at h2 <;> linarith
    · rw [hx.1, hf.zero]
      refine (hin _ ?_ ?_).symm <;> rw [hx.1] at h2 <;> linarith
  have wt := solution_weighed (by omega) hx y y0
  have sT : ∑ r ∈ Finset.range s.size, y r * T r = 0 := Finset.sum_eq_zero fun r _ => by
    by_cases hr : r < nv
    · by_cases hr0 : r = 0
      · rw [hr0, y0, zero_mul]
      · rw [tt_node he (fun id n1 n2 v hin => by have := hp _ hin; simp [Within] at this) hT r (by omega) hr, mul_zero]
    · simp [hy, hr]
  have sD : ∑ r ∈ Finset.range s.size, y r * mulVec (m + 1) D w r =
      (circ.map (capForm y w)).sum + cmin * ∑ r ∈ Finset.range nv, y r * w r := by
    rw [← dynamic_node hnv he hd' y w y0 w0, ← hmS]
    symm
    refine Finset.sum_subset (Finset.range_subset_range.2 (by omega)) fun r _ hr => ?_
    have : ¬ r < nv := by simpa using hr
    simp [hy, this]
  have split : ∑ r ∈ Finset.range s.size, y r * (s.N r + (T r + mulVec (m + 1) D w r)) =
      ∑ r ∈ Finset.range s.size, y r * s.N r + ((circ.map (capForm y w)).sum + cmin * ∑ r ∈ Finset.range nv, y r * w r) := by
    simp only [mul_add, Finset.sum_add_distrib]
    rw [sT, sD]
    ring
  rw [static_bil hnv he htp hgen, split, drive_dc hnv he htp hgen, drive] at wt
  have c0 : brSum (cross nv y x) circ 0 = 0 := brSum_zero _ _ _ fun j e hj => by
    have hin : e ∈ circ := (List.mem_filter.1 (List.mem_of_getElem? hj)).1
    have h2 := tl e hin
    rw [Nat.zero_add, cross, yn _ h2.1, yn _ h2.2, br j e hj, yb]
    ring
  have c1 : brSum (srcBranch staticVal nv y) circ 0 = 0 := brSum_zero _ _ _ fun j e _ => by
    cases e <;> simp [srcBranch, yb]
  have c2 : 0 ≤ (circ.map (srcNode staticVal y)).sum := sum_nonneg' _ _ fun e hm => by
    have h2 := hp e hm
    cases e <;> simp only [Within] at h2 <;> simp [srcNode]
  have c3 : 0 ≤ ∑ r ∈ Finset.range nv, y r * x r := Finset.sum_nonneg fun r hr => by
    rw [yn _ (Finset.mem_range.1 hr)]
    have := hf.grow (x r) 0
    rw [hf.zero, sub_zero, sub_zero] at this
    exact le_trans (mul_self_nonneg _) this
  have c4 : 0 ≤ (circ.map (resForm y x)).sum := sum_nonneg' _ _ fun e hm => by
    have h2 := tl e hm
    have h3 := hpos e hm
    cases e <;> simp only [resForm] <;> try exact le_refl _
    simp only [term, Positive] at h2 h3
    rw [yn _ h2.1, yn _ h2.2]
    exact div_nonneg (le_trans (mul_self_nonneg _) (hf.grow _ _)) h3.le
  have hyw : ∀ r < nv, 0 ≤ y r * w r ∧ (y r * w r = 0 → y r = 0) := fun r hr => by
    rw [yn r hr, hwr]
    by_cases h0 : f (x r) = 0
    · simp [h0]
    · have := hq r hr h0
      have h1 : 0 < f (x r) * (1 / h * (x r - Rlc.ext p r)) := by
        rw [show f (x r) * (1 / h * (x r - Rlc.ext p r)) = 1 / h * (f (x r) * (x r - Rlc.ext p r)) by ring]
        exact mul_pos (by positivity) this
      exact ⟨h1.le, fun h2 => absurd h2 h1.ne'⟩
  have c5 : 0 ≤ (circ.map (capForm y w)).sum := sum_nonneg' _ _ fun e hm => by
    have h2 := tl e hm
    have h3 := hpos e hm
    have h4 := hp e hm
    cases e <;> simp only [capForm] <;> try exact le_refl _
    simp only [term, Positive, Within] at h2 h3 h4
    rcases h4 with rfl | rfl
    · rw [y0, w0, zero_sub, zero_sub, mul_assoc, neg_mul_neg]
      exact mul_nonneg h3 (hyw _ h2.2).1
    · rw [y0, w0, sub_zero, sub_zero, mul_assoc]
      exact mul_nonneg h3 (hyw _ h2.1).1
  have c6 : ∀ r ∈ Finset.range nv, 0 ≤ y r * w r := fun r hr => (hyw r (Finset.mem_range.1 hr)).1
  have c7 := mul_nonneg hc.le (Finset.sum_nonneg c6)
  have c8 := mul_nonneg hg c3
  rw [c0, c1] at wt
  have z1 : cmin * ∑ r ∈ Finset.range nv, y r * w r = 0 := by linarith
  have z2 := (mul_eq_zero.1 z1).resolve_left hc.ne'
  intro r hr
  rw [← yn r hr]
  exact (hyw r hr).2 ((Finset.sum_eq_zero_iff_of_nonneg c6).1 z2 r (Finset.mem_range.2 hr))

/-- one step keeps the node voltages inside -/
theorem step_inside {nv m : Nat} {circ : List (Elem ℝ)} {s : Sys ℝ} {D : Mat ℝ} {cmin g h lo hi t : ℝ} {T : Vec ℝ} (hnv : 0 < nv)
    (hg : 0 ≤ g) (hc : 0 < cmin) (hh : 0 < h) (hlo : lo ≤ 0) (hhi : 0 ≤ hi)
    (he : ∀ e ∈ circ, NodesLt nv e) (hp : ∀ e ∈ circ, Within lo hi t e) (hpos : ∀ e ∈ circ, Positive e)
    (hgen : generate circ nv = .ok s) (hm : s.size = m + 1) (hd : generateD circ nv (m + 1) cmin = .ok D)
    (hT : genTt circ nv (some t) = .ok T) {z p : Fin m → ℝ} (hpr : ∀ r < nv, lo ≤ Rlc.ext p r ∧ Rlc.ext p r ≤ hi)
    (hz : ∀ i : Fin m, (reduce m s.M + gminMat (nv - 1) g).mulVec z i + (reduce m D).mulVec ((1 / h) • (z - p)) i +
      s.N (i.val + 1) + T (i.val + 1) = 0) :
    ∀ r < nv, lo ≤ Rlc.ext z r ∧ Rlc.ext z r ≤ hi := by
  intro r hr
  constructor
  · have := step_cut hnv hg hc hh he hp hpos hgen hm hd hT (cut_below hlo) (fun v h1 _ => min_eq_right (by linarith)) (z := z) (p := p)
      (fun r hr h0 => ?_) hz r hr
    · have h1 := min_le_left (Rlc.ext z r - lo) 0
      by_contra hlt
      push Not at hlt
      have : min (Rlc.ext z r - lo) 0 < 0 := lt_of_le_of_lt h1 (by linarith)
      linarith
    · rcases le_total 0 (Rlc.ext z r - lo) with h1 | h1
      · exact absurd (min_eq_right h1) h0
      · rw [min_eq_left h1] at h0 ⊢
        have h2 := lt_of_le_of_ne h1 h0
        exact mul_pos_of_neg_of_neg h2 (by linarith [(hpr r hr).1])
  · have := step_cut hnv hg hc hh he hp hpos hgen hm hd hT (cut_above hhi) (fun v _ h1 => max_eq_right (by linarith)) (z := z) (p := p)
      (fun r hr h0 => ?_) hz r hr
    · have h1 := le_max_left (Rlc.ext z r - hi) 0
      rw [this] at h1
      linarith
    · rcases le_total (Rlc.ext z r - hi) 0 with h1 | h1
      · exact absurd (max_eq_right h1) h0
      · rw [max_eq_left h1] at h0 ⊢
        have h2 := lt_of_le_of_ne h1 (Ne.symm h0)
        exact mul_pos h2 (by linarith [(hpr r hr).2])

/-- C187: implicit Euler, any steps. The node voltages of all points of a run stay between bounds that hold the voltages of the
starting point and, at all times, of the sources (and zero, that of the ground). -/
theorem C187_euler {c : Cfg ℝ} (hme : c.meth = .euler) (hlen : 0 < c.len) {nv m : Nat} {circ : List (Elem ℝ)} {s : Mna.Sys ℝ}
    {D : Mat ℝ} {cmin gmin lo hi : ℝ} (hnv : 0 < nv) (hlo : lo ≤ 0) (hhi : 0 ≤ hi)
    (he : ∀ e ∈ circ, NodesLt nv e) (hpos : ∀ e ∈ circ, Positive e) (hp : ∀ t, ∀ e ∈ circ, Within lo hi t e)
    (h : generate circ nv = .ok s) (hm : s.size = m + 1) (hd : generateD circ nv (m + 1) cmin = .ok D)
    (hc : 0 < cmin) (hg : 0 ≤ gmin) {Tt : ℝ → Fin m → ℝ}
    (hT : ∀ t, ∃ T, genTt circ nv (some t) = .ok T ∧ ∀ i : Fin m, Tt t i = T (i.val + 1))
    (hdir : Direct c.o (netT m s D nv gmin Tt)) {t0 step : ℝ} (h0 : 0 < step) (x0 : Fin m → ℝ)
    (hx0 : ∀ r < nv, lo ≤ Rlc.ext x0 r ∧ Rlc.ext x0 r ≤ hi) (l : List (Ctl ℝ)) (hl : ∀ a ∈ l, 0 < a.step) :
    ∀ e ∈ (run c (netT m s D nv gmin Tt) x0 l (start c t0 step x0)).st.points,
      ∀ r < nv, lo ≤ Rlc.ext e.x r ∧ Rlc.ext e.x r ≤ hi := by
  have key := run_ok (c := c) (.inl hme) hlen (n := netT m s D nv gmin Tt) (tstart := t0) (R := fun _ => True) (x0 := x0)
    (P := Holds (netT m s D nv gmin Tt)) (Q := fun _ => True)
    (bd := fun e => ∀ r < nv, lo ≤ Rlc.ext e.x r ∧ Rlc.ext e.x r ≤ hi)
    (fun f t xs x1 h1 h2 _ => direct_holds hdir rfl rfl f t xs x1 h1 h2)
    (fun e h' y _ hpos' _ _ hP hb => ?_) (fun h' => by rw [hme] at h'; cases h') l
    (fun a ha => ⟨hl a ha, trivial⟩) (ok_start h0 trivial hx0) (fun _ _ => trivial)
  · intro e he'
    exact key.bound e (by simp [history, he'])
  · obtain ⟨T, hT1, hT2⟩ := hT (e.t + h')
    obtain ⟨dx, hdx, hrow⟩ := hP
    cases hdx
    refine step_inside hnv hg hc hpos' hlo hhi he (hp _) hpos h hm hd hT1 hb fun i => ?_
    have := congrFun hrow i
    simp only [netT, netOf, Pi.add_apply, Pi.zero_apply, hT2] at this
    rw [Matrix.add_mulVec, Pi.add_apply]
    exact this

/-! ### Examples -/

/-- a source stepping from 0 V to 5 V at 1 s, and two RC sections -/
noncomputable def ladder : List (Elem ℝ) :=
  [.V "V1" 1 0 { dc := some 0, timeDep := true, fn := some fun t => if t.getD 0 < 1 then 0 else 5 },
    .R "R1" 1 2 1000, .C "C1" 2 0 (1 / 1000000) none, .R "R2" 2 3 1000, .C "C2" 0 3 (1 / 1000000) none]

/-- however long the steps, the response to the step stays between 0 V and 5 V -/
example {c : Cfg ℝ} (hme : c.meth = .euler) (hlen : 0 < c.len) (ho : Plain c.o) (h1 : c.o.meth.gmin = false) (h2 : c.o.meth.src = false)
    {step : ℝ} (h0 : 0 < step) (l : List (Ctl ℝ)) (hl : ∀ a ∈ l, 0 < a.step) :
    ∃ s D Tt, generate ladder 4 = .ok s ∧ generateD ladder 4 5 (1 / 10 ^ 18) = .ok D ∧
    ∀ e ∈ (run c (netT 4 s D 4 (1 / 10 ^ 12) Tt) 0 l (start c 0 step 0)).st.points,
      ∀ r < 4, 0 ≤ Rlc.ext e.x r ∧ Rlc.ext e.x r ≤ 5 := by
  obtain ⟨s, hs⟩ : ∃ s, generate ladder 4 = .ok s := ⟨_, rfl⟩
  obtain ⟨D, hD⟩ : ∃ D, generateD ladder 4 5 (1 / 10 ^ 18) = .ok D := ⟨_, rfl⟩
  have hT : ∀ t : ℝ, ∃ T, genTt ladder 4 (some t) = .ok T := fun t => ⟨_, rfl⟩
  choose T hT using hT
  have hn : ∀ e ∈ ladder, NodesLt 4 e := by simp [ladder, NodesLt]
  have hw : ∀ t, ∀ e ∈ ladder, Within 0 5 t e := by
    intro t
    simp only [ladder, List.mem_cons, List.not_mem_nil, or_false, forall_eq_or_imp, forall_eq, Within, srcVal, Src.eval]
    refine ⟨.inl ⟨trivial, by decide, ?_, ?_⟩, trivial, .inr trivial, trivial, .inl trivial⟩ <;>
      · simp only [Option.isNone_some, Bool.false_and, Bool.false_eq_true, if_false, Option.getD_some]
        split_ifs <;> norm_num
  have hz : s.size = 4 + 1 := by
    rw [(rows_linear hn (fun e he => (hw 0 e he).two) hs fun _ => 0).1]
    rfl
  refine ⟨s, D, fun t i => T t (i.val + 1), hs, hD, ?_⟩
  exact C187_euler hme hlen (by decide) (le_refl _) (by norm_num) hn (by simp [ladder, Positive]) hw hs hz hD (by norm_num) (by norm_num)
    (fun t => ⟨T t, hT t, fun _ => rfl⟩) ⟨ho, .inl ⟨h1, h2⟩⟩ h0 0 (fun r _ => by
      cases r with
      | zero => simp [Rlc.ext]
      | succ r => simp only [Rlc.ext]; split_ifs <;> simp) l hl

/-- the trapezoidal rule does overshoot: a capacitor of 1 F at 1 V, discharged into 1 ohm, is at -1/3 V after a step of 4 s -/
example : let n : Net ℝ 1 := ⟨!![1], !![1], ![0], fun _ => 0, 1, 0, false, fun _ => 0, fun _ => 0, []⟩
    let a : Entry ℝ 1 := ⟨0, ![1], some ![-1]⟩
    let b : Entry ℝ 1 := ⟨4, ![-1 / 3], some ((2 / 4 : ℝ) • (![-1 / 3] - a.x) - ![-1])⟩
    Holds n a ∧ Holds n b := by
  have : gminMat (m := 1) 1 (0 : ℝ) = 0 := by ext i j; fin_cases i; fin_cases j; simp [gminMat]
  refine ⟨⟨_, rfl, ?_⟩, ⟨_, rfl, ?_⟩⟩ <;> simp only [this] <;> funext i <;> fin_cases i <;> simp
  norm_num

end Verif.Overshoot
