import Verif.Props.Steady
import Verif.Props.Rlc

/-!
C182: what a circuit conserves is conserved by its transient analysis.
-/

namespace Verif.Conserve
open Verif.Op Verif.Homotopy Verif.Tran Verif.Steady Matrix

variable {K : Type} [Field K] [LinearOrder K] [IsStrictOrderedRing K] {m : Nat}

/-- a quantity `w·x` has the value `a` at all points and derivative zero where there is one; the times are different -/
structure Same (w : Fin m → K) (a : K) (l : List (Entry K m)) : Prop where
  x : ∀ e ∈ l, w ⬝ᵥ e.x = a
  dx : ∀ e ∈ l, ∀ d, e.dx = some d → w ⬝ᵥ d = 0
  t : l.Pairwise fun later earlier => earlier.t < later.t

variable {w : Fin m → K} {a : K} {l : List (Entry K m)}

omit [IsStrictOrderedRing K] in
theorem Same.still (h : Same w a l) : Still (fun _ : Fin 1 => a) (l.map fun e => ⟨e.t, fun _ => w ⬝ᵥ e.x, e.dx.map fun d _ => w ⬝ᵥ d⟩) := by
  refine ⟨?_, ?_, ?_⟩
  · intro e he
    obtain ⟨e', h', rfl⟩ := List.mem_map.1 he
    funext _
    exact h.x e' h'
  · intro e he d hd
    obtain ⟨e', h', rfl⟩ := List.mem_map.1 he
    obtain ⟨d', hd', rfl⟩ := Option.map_eq_some_iff.1 hd
    funext _
    exact h.dx e' h' d' hd'
  · rw [List.pairwise_map]
    exact h.t

/-- the history of `w·x` alone -/
def proj (w : Fin m → K) (l : List (Entry K m)) : List (Entry K 1) :=
  l.map fun e => ⟨e.t, fun _ => w ⬝ᵥ e.x, e.dx.map fun d _ => w ⬝ᵥ d⟩

omit [LinearOrder K] [IsStrictOrderedRing K] in
theorem tAt_proj (k : Nat) : tAt (proj w l) k = tAt l k := by
  unfold tAt proj
  rw [List.getElem?_map]
  cases l[k]? <;> rfl

omit [LinearOrder K] [IsStrictOrderedRing K] in
theorem xAt_proj (k : Nat) (i : Fin 1) : xAt (proj w l) k i = w ⬝ᵥ (fun i => xAt l k i) := by
  unfold xAt proj
  rw [List.getElem?_map]
  cases l[k]? with
  | none => simp [dotProduct]
  | some e => rfl

omit [LinearOrder K] [IsStrictOrderedRing K] in
theorem dxAt_proj (k : Nat) (i : Fin 1) : dxAt (proj w l) k i = w ⬝ᵥ (fun i => dxAt l k i) := by
  unfold dxAt proj
  rw [List.getElem?_map]
  cases l[k]? with
  | none => simp [dotProduct]
  | some e =>
    obtain ⟨t, x, dx⟩ := e
    cases dx with
    | none => simp [dotProduct]
    | some d => rfl

/-- the formulas are linear: the formula for `w·x` has the coefficients of the formula for `x` -/
theorem formula_proj {mt : Tran.Meth} {ctl : Bool} {iter : Nat} {step : K} {f : Formula K m}
    (h : formula mt ctl iter l step = .ok f) :
    ∃ g : Formula K 1, formula mt ctl iter (proj w l) step = .ok g ∧ g.c1 = f.c1 ∧ g.c0 0 = w ⬝ᵥ f.c0 := by
  have he : ∀ p (b : List (Entry K m)), eulerDf b step p = .ok f →
      ∃ g : Formula K 1, eulerDf (proj w b) step p = .ok g ∧ g.c1 = f.c1 ∧ g.c0 0 = w ⬝ᵥ f.c0 := by
    intro p b h'
    unfold eulerDf at h' ⊢
    split at h'
    · cases h'
    · rename_i hl
      cases h'
      rw [if_neg (by simpa [proj] using hl)]
      refine ⟨_, rfl, rfl, ?_⟩
      simp only [DF.implicitEuler, xAt_proj, dotProduct, Finset.mul_sum]
      exact Finset.sum_congr rfl fun i _ => by ring
  unfold formula at h ⊢
  simp only at h ⊢
  split at h
  · rename_i hi
    rw [if_pos hi]
    split at h
    · cases h
    · rename_i e tl
      exact he _ [e] h
  · rename_i hi
    rw [if_neg hi]
    cases mt with
    | euler => exact he _ _ h
    | trap =>
      simp only [Meth.df] at h ⊢
      unfold trapDf at h
      split at h
      · cases h
      · rename_i e tl
        split at h
        · cases h
        · rename_i h1
          split at h
          · cases h
          · rename_i h2
            split at h
            · cases h
            · rename_i h3
              cases h
              have hn : (proj w (e :: tl)).length = (e :: tl).length := by simp [proj]
              unfold trapDf
              change ∃ g : Formula K 1, (if (e.dx.map fun d (_ : Fin 1) => w ⬝ᵥ d).isNone = true then _ else _) = _ ∧ _
              rw [if_neg (by simpa using h1)]
              simp only [hn]
              rw [if_neg h2, if_neg h3]
              refine ⟨_, rfl, rfl, ?_⟩
              change (DF.trap (tAt (proj w (e :: tl))) (fun k => xAt (proj w (e :: tl)) k 0) (fun k => dxAt (proj w (e :: tl)) k 0) step).c0 = _
              simp only [DF.trap, xAt_proj, dxAt_proj, dotProduct, Finset.mul_sum]
              rw [← Finset.sum_add_distrib, Finset.mul_sum]
              exact Finset.sum_congr rfl fun i _ => by ring
    | gear n =>
      simp only [Meth.df] at h ⊢
      unfold gearDf at h ⊢
      split at h
      · cases h
      · rename_i hl
        cases h
        rw [if_neg (by simpa [proj] using hl)]
        refine ⟨_, rfl, ?_, ?_⟩
        · have : tAt (proj w l) = tAt l := funext fun k => tAt_proj k
          simp only [this]
        · have : tAt (proj w l) = tAt l := funext fun k => tAt_proj k
          simp only [DF.gear_c0, xAt_proj, this, dotProduct, Finset.mul_sum]
          rw [Finset.sum_comm]
          refine Finset.sum_congr rfl fun i _ => Finset.sum_congr rfl fun k _ => by ring

theorem formula_same {mt : Tran.Meth} (hmt : Real mt) {ctl : Bool} {iter : Nat} {step : K} (hs : 0 < step) (hb : Same w a l)
    {f : Formula K m} (h : formula mt ctl iter l step = .ok f) : 0 < f.c1 ∧ f.c1 * a + w ⬝ᵥ f.c0 = 0 := by
  obtain ⟨g, h1, h2, h3⟩ := formula_proj (w := w) h
  obtain ⟨k1, k2, -⟩ := formula_still hmt hs hb.still h1
  have := congrFun k2 0
  simp only [Pi.add_apply, Pi.smul_apply, smul_eq_mul, Pi.zero_apply] at this
  rw [← h2, ← h3]
  exact ⟨k1, this⟩

/-- combinations of the equations in which neither voltages and currents nor sources occur, only derivatives -/
structure Law (n : Net K m) (w : Fin m → K) : Prop where
  static : w ᵥ* (n.mna + gminMat n.nn n.gmin) = 0
  src : ∀ t, w ⬝ᵥ (n.N + n.Tt t) = 0

omit [LinearOrder K] [IsStrictOrderedRing K] in
theorem law_holds {n : Net K m} (hw : Law n w) {e : Entry K m} (h : Holds n e) {d : Fin m → K} (hd : e.dx = some d) :
    (w ᵥ* n.D) ⬝ᵥ d = 0 := by
  obtain ⟨dx, h1, h2⟩ := h
  rw [hd] at h1
  cases h1
  have h3 := congrArg (fun v => w ⬝ᵥ v) h2
  simp only [dotProduct_add, dotProduct_zero] at h3
  have h4 := congrArg (fun v => v ⬝ᵥ e.x) hw.static
  simp only [zero_dotProduct, ← dotProduct_mulVec, add_mulVec, dotProduct_add] at h4
  have h5 := hw.src e.t
  rw [dotProduct_add] at h5
  rw [← dotProduct_mulVec]
  linear_combination h3 - h4 - h5

/-- the loop -/
structure Ok (c : Cfg K) (tstart : K) (x0 : Fin m → K) (w : Fin m → K) (s : St K m) : Prop where
  inv : Inv c tstart x0 s
  same : Same w (w ⬝ᵥ x0) (history tstart x0 s.points)
  pos : 0 < s.tstep

theorem run_same {c : Cfg K} {n : Net K m} (hmt : Real c.meth) {tstart : K} {x0 : Fin m → K} (hw : Law n w)
    (hH : ∀ (f : Formula K m) (t : K) (xs x1 : Fin m → K), 0 < f.c1 → dcSolve c.o (n.at f t) n.gmin (some xs) = .solved x1 →
      Holds n ⟨t, x1, some (f.c1 • x1 + f.c0)⟩)
    (l : List (Ctl K)) (hl : ∀ a ∈ l, 0 < a.step) {s : St K m} (hs : Ok c tstart x0 (w ᵥ* n.D) s) :
    Ok c tstart x0 (w ᵥ* n.D) (run c n x0 l s).st := by
  induction l generalizing s with
  | nil => exact hs
  | cons b r ih =>
    unfold run
    rcases hp : pass c n x0 s b with s' | s' | s'
    · refine ih (fun q hq => hl q (List.mem_cons_of_mem _ hq)) ⟨inv_pass hs.inv hp, ?_, by rw [pass_step hp]; exact hl b (List.mem_cons_self ..)⟩
      rcases pass_cases hp with ⟨st, rfl⟩ | ⟨f, x1, hf, hx, st, rfl⟩
      · exact hs.same
      · have hb : Same (w ᵥ* n.D) ((w ᵥ* n.D) ⬝ᵥ x0) s.buf := by
          rw [hs.inv.buf]
          exact ⟨fun e he => hs.same.x e (List.mem_of_mem_take he), fun e he => hs.same.dx e (List.mem_of_mem_take he),
            hs.same.t.sublist (List.take_sublist _ _)⟩
        obtain ⟨h1, h2⟩ := formula_same hmt hs.pos hb hf
        have hd := law_holds hw (hH f _ _ x1 h1 hx) rfl
        have hx1 : (w ᵥ* n.D) ⬝ᵥ x1 = (w ᵥ* n.D) ⬝ᵥ x0 := by
          rw [dotProduct_add, dotProduct_smul, smul_eq_mul] at hd
          have : f.c1 * ((w ᵥ* n.D) ⬝ᵥ x1 - (w ᵥ* n.D) ⬝ᵥ x0) = 0 := by linear_combination hd - h2
          rcases mul_eq_zero.1 this with h0 | h0
          · exact absurd h0 h1.ne'
          · linear_combination h0
        simp only [history, List.reverse_append, List.reverse_singleton, List.cons_append, List.nil_append]
        refine ⟨?_, ?_, ?_⟩
        · intro e he
          rcases List.mem_cons.1 he with rfl | he
          · exact hx1
          · exact hs.same.x e he
        · intro e he d hd'
          rcases List.mem_cons.1 he with rfl | he
          · simp only [Option.some.injEq] at hd'
            rw [← hd']
            exact hd
          · exact hs.same.dx e he d hd'
        · refine List.pairwise_cons.2 ⟨fun e he => ?_, hs.same.t⟩
          change e ∈ history tstart x0 s.points at he
          obtain ⟨j, hj, rfl⟩ := List.getElem_of_mem he
          have : tAt (history tstart x0 s.points) j ≤ tAt (history tstart x0 s.points) 0 := by
            rcases Nat.eq_zero_or_pos j with rfl | h0
            · rfl
            · have h0l : 0 < (history tstart x0 s.points).length := by omega
              rw [tAt, tAt, List.getElem?_eq_getElem hj, List.getElem?_eq_getElem h0l, Option.map_some, Option.getD_some,
                Option.map_some, Option.getD_some]
              exact (List.pairwise_iff_getElem.1 hs.same.t 0 j h0l hj h0).le
          rw [← hs.inv.time, tAt, List.getElem?_eq_getElem hj, Option.map_some, Option.getD_some] at this
          have := hs.pos
          show (history tstart x0 s.points)[j].t < s.time + s.tstep
          linarith
    all_goals
      have : s' = s := by
        unfold pass at hp
        split at hp
        · cases hp <;> rfl
        · split at hp
          · cases b <;> cases hp
          · split at hp
            · cases b <;> cases hp
            · cases hp <;> rfl
          · cases hp <;> rfl
      subst this
      exact hs

omit [IsStrictOrderedRing K] in
theorem ok_start (c : Cfg K) (tstart step : K) (hst : 0 < step) (x0 w : Fin m → K) : Ok c tstart x0 w (start c tstart step x0) :=
  ⟨inv_start c tstart step x0, ⟨by simp [start, history], by simp [start, history], by simp [start, history]⟩, hst⟩

/-- C182: whatever the method and the steps, every point has the value of the conserved quantity at the start. Gmin and source
stepping switched off. -/
theorem C182_law_plain {c : Cfg K} (hmt : Real c.meth) (ho : Plain c.o) (hg : c.o.meth.gmin = false) (hs : c.o.meth.src = false)
    {n : Net K m} (hl : n.nonlinear = false) (hk : n.locked = []) (hw : Law n w) (tstart step : K) (hst : 0 < step)
    (x0 : Fin m → K) (l : List (Ctl K)) (hp : ∀ b ∈ l, 0 < b.step) :
    ∀ e ∈ (run c n x0 l (start c tstart step x0)).st.points, w ⬝ᵥ (n.D *ᵥ e.x) = w ⬝ᵥ (n.D *ᵥ x0) := by
  have hstd : StdOnly (setNext c.o.meth init) := stdOnly_next hg hs ⟨rfl, rfl, by rintro y ⟨⟩⟩
  have h := run_same hmt hw (fun f t xs x1 _ hx => C121_step ho n hl hk f t x1 (loopX_std c.o hg hs _ _ _ _ _ _ hstd hx)) l hp
    (ok_start c tstart step hst x0 (w ᵥ* n.D))
  intro e he
  rw [dotProduct_mulVec, dotProduct_mulVec]
  exact h.same.x e (by simp [history, he])

/-- C182 with the default options, if the matrices of the steps are regular. -/
theorem C182_law_regular {c : Cfg K} (hmt : Real c.meth) (ho : Plain c.o) (hm : c.o.meth.std = true)
    {n : Net K m} (hl : n.nonlinear = false) (hk : n.locked = [])
    (hd : ∀ a : K, 0 < a → (n.mna + a • n.D + gminMat n.nn n.gmin).det ≠ 0) (hw : Law n w) (tstart step : K) (hst : 0 < step)
    (x0 : Fin m → K) (l : List (Ctl K)) (hp : ∀ b ∈ l, 0 < b.step) :
    ∀ e ∈ (run c n x0 l (start c tstart step x0)).st.points, w ⬝ᵥ (n.D *ᵥ e.x) = w ⬝ᵥ (n.D *ᵥ x0) := by
  have h := run_same hmt hw (fun f t xs x1 h1 hx => C121_regular_step ho hm n hl hk f t xs x1 (hd f.c1 h1) hx) l hp
    (ok_start c tstart step hst x0 (w ᵥ* n.D))
  intro e he
  rw [dotProduct_mulVec, dotProduct_mulVec]
  exact h.same.x e (by simp [history, he])

/-! ### Charges -/

section circuits
open Verif.Circuit Verif.Mna Verif.Dyn Verif.Rlc

/-- capacitors -/
def IsCap : Elem K → Bool
  | .C .. => true
  | _ => false

/-- weights of nodes, of the reduced vector -/
def nodeW (m nv : Nat) (W : Vec K) : Fin m → K := fun i => if i.val + 1 < nv then W (i.val + 1) else 0

omit [LinearOrder K] [IsStrictOrderedRing K] in
theorem nodeW_dot {m nv : Nat} (hm : nv ≤ m + 1) (W : Vec K) (h0 : W 0 = 0) (v : Fin m → K) (V : Vec K)
    (hv : ∀ i : Fin m, v i = V (i.val + 1)) : nodeW m nv W ⬝ᵥ v = ∑ r ∈ Finset.range nv, W r * V r := by
  unfold dotProduct
  rw [Finset.sum_fin_eq_sum_range]
  have e1 : ∑ r ∈ Finset.range nv, W r * V r = ∑ r ∈ Finset.range (m + 1), if r < nv then W r * V r else 0 := by
    rw [← Finset.sum_filter]
    refine Finset.sum_congr ?_ fun _ _ => rfl
    ext r
    simp only [Finset.mem_range, Finset.mem_filter]
    omega
  rw [e1, Finset.sum_range_succ', h0]
  simp only [zero_mul, ite_self, add_zero]
  refine Finset.sum_congr rfl fun j hj => ?_
  rw [dif_pos (Finset.mem_range.1 hj), hv]
  simp only [nodeW]
  split <;> simp

omit [LinearOrder K] [IsStrictOrderedRing K] in
theorem kcl_weight {circ : List (Elem K)} {nv : Nat} (hnv : 0 < nv) (W x : Vec K) (val : Src K → K)
    (l : List (Elem K)) (k : Nat) (hl : ∀ e ∈ l, NodesLt nv e) (hW : ∀ e ∈ l, IsCap e = false → W (term e).1 = W (term e).2) :
    ∑ r ∈ Finset.range nv, W r * kcl circ nv x val l k r = 0 := by
  induction l generalizing k with
  | nil => simp [kcl]
  | cons e t ih =>
    have h2 := (hl e (List.mem_cons_self ..)).term_lt' hnv
    simp only [kcl, mul_add, Finset.sum_add_distrib]
    rw [ih _ (fun e' h' => hl e' (List.mem_cons_of_mem _ h')) (fun e' h' => hW e' (List.mem_cons_of_mem _ h')),
      sum_inj W _ _ _ h2.1 h2.2, add_zero]
    by_cases hc : IsCap e = true
    · cases e <;> simp [IsCap] at hc
      simp [current]
    · rw [hW e (List.mem_cons_self ..) (by simpa using hc), sub_self, zero_mul]

/-- charge with weights -/
def wcharge (nv : Nat) (circ : List (Elem K)) (cmin : K) (W x : Vec K) : K :=
  (circ.map (capForm W x)).sum + cmin * ∑ r ∈ Finset.range nv, W r * x r

omit [LinearOrder K] [IsStrictOrderedRing K] in
theorem wcharge_eq {nv m : Nat} {circ : List (Elem K)} {cmin : K} {D : Mat K} (hnv : 0 < nv)
    (he : ∀ e ∈ circ, NodesLt nv e) (hm : m + 1 = nv + (vdes circ).length)
    (h : generateD circ nv (m + 1) cmin = .ok D) (W : Vec K) (h0 : W 0 = 0) (x : Fin m → K) :
    nodeW m nv W ⬝ᵥ (reduce m D *ᵥ x) = wcharge nv circ cmin W (Rlc.ext x) := by
  rw [nodeW_dot (by omega) W h0 _ (fun r => Mna.mulVec (m + 1) D (Rlc.ext x) r) (fun i => reduce_row D x i)]
  rw [hm] at h ⊢
  have e1 : ∀ l : List (Elem K), (∀ e ∈ l, NodesLt nv e) → ∑ r ∈ Finset.range nv, W r *
      (l.map (fun e => inj (term e).1 (term e).2 (capCurrent (Rlc.ext x) e) r)).sum = (l.map (capForm W (Rlc.ext x))).sum := by
    intro l
    induction l with
    | nil => simp
    | cons e t ih =>
      intro hl
      have h2 := (hl e (List.mem_cons_self ..)).term_lt' hnv
      simp only [List.map_cons, List.sum_cons, mul_add, Finset.sum_add_distrib]
      rw [ih fun e' h' => hl e' (List.mem_cons_of_mem _ h'), sum_inj _ _ _ _ h2.1 h2.2]
      congr 1
      cases e <;> simp [capCurrent, capForm, term]
      ring
  rw [wcharge, ← e1 circ he, Finset.mul_sum, ← Finset.sum_add_distrib]
  refine Finset.sum_congr rfl fun r hr => ?_
  have hr := Finset.mem_range.1 hr
  cases r with
  | zero => simp [h0]
  | succ r =>
    rw [C08_node_rows he h (Rlc.ext x) rfl (r + 1) (by omega) hr]
    ring

/-- the net of a linear circuit with time-dependent sources `Tt` -/
def netT (m : Nat) (s : Sys K) (D : Mat K) (nv : Nat) (gmin : K) (Tt : K → Fin m → K) : Net K m :=
  { netOf m s D nv gmin with Tt := Tt }

omit [LinearOrder K] [IsStrictOrderedRing K] in
theorem charge_law {nv m : Nat} {circ : List (Elem K)} {s : Sys K} {D : Mat K} (hnv : 0 < nv)
    (he : ∀ e ∈ circ, NodesLt nv e) (hp : ∀ e ∈ circ, Proper e) (h : generate circ nv = .ok s) (hm : s.size = m + 1)
    (hz : nv ≤ s.size) (W : Vec K) (h0 : W 0 = 0) (hW : ∀ e ∈ circ, IsCap e = false → W (term e).1 = W (term e).2)
    {Tt : K → Fin m → K} (hT : ∀ t, ∀ i : Fin m, i.val + 1 < nv → W (i.val + 1) ≠ 0 → Tt t i = 0) :
    Law (netT m s D nv 0 Tt) (nodeW m nv W) := by
  have key : ∀ x : Vec K, ∑ r ∈ Finset.range nv, W r * (Mna.mulVec s.size s.M x r + s.N r) = 0 := by
    intro x
    rw [← kcl_weight hnv W x staticVal circ 0 he hW (circ := circ)]
    refine Finset.sum_congr rfl fun r hr => ?_
    rw [C07_node_rows he hp h x r (Finset.mem_range.1 hr)]
  have kN : ∑ r ∈ Finset.range nv, W r * s.N r = 0 := by
    have := key fun _ => 0
    simpa [Mna.mulVec] using this
  have kM : ∀ x : Vec K, ∑ r ∈ Finset.range nv, W r * Mna.mulVec s.size s.M x r = 0 := by
    intro x
    have := key x
    simp only [mul_add, Finset.sum_add_distrib, kN, add_zero] at this
    exact this
  constructor
  · have hg : gminMat (m := m) (nv - 1) (0 : K) = 0 := by
      unfold gminMat
      simp only [ite_self]
      exact Matrix.diagonal_zero
    show nodeW m nv W ᵥ* (reduce m s.M + gminMat (nv - 1) 0) = 0
    rw [hg, add_zero]
    refine (dotProduct_eq_zero_iff.1 fun x => ?_)
    rw [← dotProduct_mulVec, nodeW_dot (by omega) W h0 _ (fun r => Mna.mulVec (m + 1) s.M (Rlc.ext x) r)
      (fun i => reduce_row s.M x i), ← hm]
    exact kM _
  · intro t
    show nodeW m nv W ⬝ᵥ (reduceV m s.N + Tt t) = 0
    rw [dotProduct_add, nodeW_dot (by omega) W h0 (reduceV m s.N) s.N (fun i => rfl), kN, zero_add]
    refine Finset.sum_eq_zero fun i _ => ?_
    unfold nodeW
    split
    · rename_i hi
      by_cases hw : W (i.val + 1) = 0
      · rw [hw, zero_mul]
      · rw [hT t i hi hw, mul_zero]
    · exact zero_mul _

/-- charge on the nodes of `S`: that of the plates of the capacitors connected there, and of the small capacitors `cmin` -/
def charge (circ : List (Elem K)) (cmin : K) (S : Finset Nat) (x : Vec K) : K :=
  (circ.map fun e => match e with
    | .C _ n1 n2 c _ => (if n1 ∈ S then c * (x n1 - x n2) else 0) + (if n2 ∈ S then c * (x n2 - x n1) else 0)
    | _ => 0).sum + cmin * ∑ r ∈ S, x r

omit [LinearOrder K] [IsStrictOrderedRing K] in
theorem wcharge_set {nv : Nat} (circ : List (Elem K)) (cmin : K) {S : Finset Nat} (hS : ∀ r ∈ S, r < nv) (x : Vec K) :
    wcharge nv circ cmin (fun r => if r ∈ S then 1 else 0) x = charge circ cmin S x := by
  unfold wcharge charge
  congr 1
  · congr 1
    refine List.map_congr_left fun e _ => ?_
    cases e <;> simp only [capForm]
    split <;> split <;> ring
  · congr 1
    simp only [ite_mul, one_mul, zero_mul]
    rw [← Finset.sum_filter]
    refine Finset.sum_congr ?_ fun _ _ => rfl
    ext r
    simp only [Finset.mem_filter, Finset.mem_range]
    exact ⟨fun h => h.2, fun h => ⟨hS r h, h⟩⟩

/-- C182 (partial: without Gmin; Gmin and source stepping switched off; what is missing: Gmin discharges the nodes, see
below): if only capacitors connect the nodes of `S` with the others and no time-dependent current source feeds them, their charge is
at every point of a transient analysis what it was at the beginning, whatever the method and the steps. -/
theorem C182_charge_partial {c : Cfg K} (hmt : Real c.meth) (ho : Plain c.o) (hg : c.o.meth.gmin = false) (hs : c.o.meth.src = false)
    {nv m : Nat} {circ : List (Elem K)} {s : Sys K} {D : Mat K} {cmin : K} (hnv : 0 < nv)
    (he : ∀ e ∈ circ, NodesLt nv e) (hp : ∀ e ∈ circ, Proper e) (h : generate circ nv = .ok s) (hm : s.size = m + 1)
    (hd : generateD circ nv (m + 1) cmin = .ok D)
    {S : Finset Nat} (hS : ∀ r ∈ S, 0 < r ∧ r < nv)
    (hc : ∀ e ∈ circ, IsCap e = false → ((term e).1 ∈ S ↔ (term e).2 ∈ S))
    {Tt : K → Fin m → K} (hT : ∀ t, ∀ i : Fin m, i.val + 1 ∈ S → Tt t i = 0)
    (tstart step : K) (hst : 0 < step) (x0 : Fin m → K) (l : List (Ctl K)) (hl : ∀ b ∈ l, 0 < b.step) :
    ∀ e ∈ (run c (netT m s D nv 0 Tt) x0 l (start c tstart step x0)).st.points,
      charge circ cmin S (Rlc.ext e.x) = charge circ cmin S (Rlc.ext x0) := by
  have h0 : (if 0 ∈ S then 1 else 0 : K) = 0 := if_neg fun h => absurd (hS 0 h).1 (by omega)
  have hz := (generate_row (fun _ => 0) he hp h).1
  have hL := charge_law (D := D) hnv he hp h hm (by omega) (fun r => if r ∈ S then 1 else 0) h0
    (fun e h1 h2 => by simp only [hc e h1 h2]) (Tt := Tt)
    (fun t i _ hi => hT t i (by by_contra hn; exact hi (if_neg hn)))
  intro e hme
  have := C182_law_plain hmt ho hg hs (n := netT m s D nv 0 Tt) rfl rfl hL tstart step hst x0 l hl e hme
  rw [← wcharge_set circ cmin (fun r hr => (hS r hr).2), ← wcharge_set circ cmin (fun r hr => (hS r hr).2),
    ← wcharge_eq hnv he (by omega) hd _ h0, ← wcharge_eq hnv he (by omega) hd _ h0]
  exact this

/-! ### Fluxes -/

omit [LinearOrder K] [IsStrictOrderedRing K] in
theorem ind_row {nv : Nat} {circ : List (Elem K)} {s : Sys K} (he : ∀ e ∈ circ, NodesLt nv e) (hp : ∀ e ∈ circ, Proper e)
    (h : generate circ nv = .ok s) (x : Vec K) {k : Nat} {id : String} {n1 n2 : Nat} {v : K} {ic : Option K} {cp : List (Coupling K)}
    (hk : (vdes circ)[k]? = some (.L id n1 n2 v ic cp)) :
    Mna.mulVec s.size s.M x (nv + k) + s.N (nv + k) = x n1 - x n2 := by
  obtain ⟨-, hr⟩ := generate_row x he hp h
  rw [hr (nv + k), sum_zero_of _ _ (fun e he' => c1_high x (he e he') _ (by omega)),
    sum_zero_of _ _ (fun e he' => c3_high x (he e he') _ (by omega)),
    c2sum_branch x (le_refl nv) he hk, zero_add, add_zero]
  rfl

/-- weights of branches, of the reduced vector -/
def branchW (m nv : Nat) (b : Nat → K) : Fin m → K := fun i => if nv ≤ i.val + 1 then b (i.val + 1 - nv) else 0

omit [LinearOrder K] [IsStrictOrderedRing K] in
theorem branchW_dot {m nv q : Nat} (hnv : 0 < nv) (hm : m + 1 = nv + q) (b : Nat → K) (v : Fin m → K) (V : Vec K)
    (hv : ∀ i : Fin m, v i = V (i.val + 1)) : branchW m nv b ⬝ᵥ v = ∑ k ∈ Finset.range q, b k * V (nv + k) := by
  unfold dotProduct
  rw [Finset.sum_fin_eq_sum_range]
  have e0 : ∑ r ∈ Finset.range (m + 1), (if nv ≤ r then b (r - nv) * V r else 0) = ∑ k ∈ Finset.range q, b k * V (nv + k) := by
    rw [hm, Finset.sum_range_add, Finset.sum_eq_zero, zero_add]
    · refine Finset.sum_congr rfl fun k _ => ?_
      rw [if_pos (by omega), Nat.add_sub_cancel_left]
    · intro r hr
      exact if_neg (by have := Finset.mem_range.1 hr; omega)
  rw [← e0, Finset.sum_range_succ', if_neg (by omega), add_zero]
  refine Finset.sum_congr rfl fun j hj => ?_
  rw [dif_pos (Finset.mem_range.1 hj), hv]
  simp only [branchW]
  split <;> simp

/-- voltage across the element with branch `k` -/
def volt (circ : List (Elem K)) (x : Vec K) (k : Nat) : K :=
  match (vdes circ)[k]? with
  | some e => x (term e).1 - x (term e).2
  | none => 0

/-- flux linked with the inductor with branch `k`: its own and that of the inductors coupled with it -/
def linked (circ : List (Elem K)) (nv : Nat) (x : Vec K) (k : Nat) : K :=
  match (vdes circ)[k]? with
  | some (.L id _ _ v _ cp) => v * x (nv + k) + mutualTerm circ nv x id cp
  | _ => 0

/-- a closed loop of inductors passed `b k` times in the direction of the branch `k` -/
structure Loop (circ : List (Elem K)) (b : Nat → K) : Prop where
  inductors : ∀ k, b k ≠ 0 → ∃ id n1 n2 v ic cp, (vdes circ)[k]? = some (.L id n1 n2 v ic cp)
  closed : ∀ x : Vec K, ∑ k ∈ Finset.range (vdes circ).length, b k * volt circ x k = 0

omit [LinearOrder K] [IsStrictOrderedRing K] in
theorem flux_law {nv m : Nat} {circ : List (Elem K)} {s : Sys K} {D : Mat K} {gmin : K} (hnv : 0 < nv)
    (he : ∀ e ∈ circ, NodesLt nv e) (hp : ∀ e ∈ circ, Proper e) (h : generate circ nv = .ok s) (hm : s.size = m + 1)
    {b : Nat → K} (hb : Loop circ b) {Tt : K → Fin m → K} (hT : ∀ t, ∀ i : Fin m, nv ≤ i.val + 1 → b (i.val + 1 - nv) ≠ 0 → Tt t i = 0) :
    Law (netT m s D nv gmin Tt) (branchW m nv b) := by
  have hz := (generate_row (fun _ => 0) he hp h).1
  have hm' : m + 1 = nv + (vdes circ).length := by omega
  have key : ∀ x : Vec K, ∑ k ∈ Finset.range (vdes circ).length, b k * (Mna.mulVec s.size s.M x (nv + k) + s.N (nv + k)) = 0 := by
    intro x
    rw [← hb.closed x]
    refine Finset.sum_congr rfl fun k _ => ?_
    by_cases h0 : b k = 0
    · rw [h0, zero_mul, zero_mul]
    · obtain ⟨id, n1, n2, v, ic, cp, hk⟩ := hb.inductors k h0
      rw [ind_row he hp h x hk, volt, hk]
      rfl
  have kN : ∑ k ∈ Finset.range (vdes circ).length, b k * s.N (nv + k) = 0 := by
    have := key fun _ => 0
    simpa [Mna.mulVec] using this
  have kM : ∀ x : Vec K, ∑ k ∈ Finset.range (vdes circ).length, b k * Mna.mulVec s.size s.M x (nv + k) = 0 := by
    intro x
    have := key x
    simp only [mul_add, Finset.sum_add_distrib, kN, add_zero] at this
    exact this
  constructor
  · show branchW m nv b ᵥ* (reduce m s.M + gminMat (nv - 1) gmin) = 0
    refine (dotProduct_eq_zero_iff.1 fun x => ?_)
    have e1 : branchW m nv b ⬝ᵥ (gminMat (nv - 1) gmin *ᵥ x) = 0 := by
      refine Finset.sum_eq_zero fun i _ => ?_
      unfold gminMat branchW
      rw [Matrix.mulVec_diagonal]
      split
      · rw [if_neg (by omega), zero_mul, mul_zero]
      · exact zero_mul _
    rw [← dotProduct_mulVec, add_mulVec, dotProduct_add, e1, add_zero,
      branchW_dot hnv hm' b _ (fun r => Mna.mulVec (m + 1) s.M (Rlc.ext x) r) (fun i => reduce_row s.M x i), ← hm]
    exact kM _
  · intro t
    show branchW m nv b ⬝ᵥ (reduceV m s.N + Tt t) = 0
    rw [dotProduct_add, branchW_dot hnv hm' b (reduceV m s.N) s.N (fun i => rfl), kN, zero_add]
    refine Finset.sum_eq_zero fun i _ => ?_
    unfold branchW
    split
    · rename_i hi
      by_cases hw : b (i.val + 1 - nv) = 0
      · rw [hw, zero_mul]
      · rw [hT t i hi hw, mul_zero]
    · exact zero_mul _

omit [LinearOrder K] [IsStrictOrderedRing K] in
theorem flux_eq {nv m : Nat} {circ : List (Elem K)} {cmin : K} {D : Mat K} (hnv : 0 < nv)
    (he : ∀ e ∈ circ, NodesLt nv e) (hm : m + 1 = nv + (vdes circ).length)
    (h : generateD circ nv (m + 1) cmin = .ok D) {b : Nat → K} (hb : Loop circ b) (x : Fin m → K) :
    branchW m nv b ⬝ᵥ (reduce m D *ᵥ x) = -∑ k ∈ Finset.range (vdes circ).length, b k * linked circ nv (Rlc.ext x) k := by
  rw [branchW_dot hnv hm b _ (fun r => Mna.mulVec (m + 1) D (Rlc.ext x) r) (fun i => reduce_row D x i), ← Finset.sum_neg_distrib]
  rw [hm] at h ⊢
  refine Finset.sum_congr rfl fun k _ => ?_
  by_cases h0 : b k = 0
  · rw [h0]; simp
  · obtain ⟨id, n1, n2, v, ic, cp, hk⟩ := hb.inductors k h0
    rw [C08_branch_rows hnv he h (Rlc.ext x) rfl k _ hk, linked, hk, flux]
    ring

/-- C182: the flux through a closed loop of inductors is at every point of a transient analysis what it was at the beginning, whatever
the method, the steps and the value of Gmin. Gmin and source stepping switched off. -/
theorem C182_flux_plain {c : Cfg K} (hmt : Real c.meth) (ho : Plain c.o) (hg : c.o.meth.gmin = false) (hs : c.o.meth.src = false)
    {nv m : Nat} {circ : List (Elem K)} {s : Sys K} {D : Mat K} {cmin gmin : K} (hnv : 0 < nv)
    (he : ∀ e ∈ circ, NodesLt nv e) (hp : ∀ e ∈ circ, Proper e) (h : generate circ nv = .ok s) (hm : s.size = m + 1)
    (hd : generateD circ nv (m + 1) cmin = .ok D) {b : Nat → K} (hb : Loop circ b)
    {Tt : K → Fin m → K} (hT : ∀ t, ∀ i : Fin m, nv ≤ i.val + 1 → b (i.val + 1 - nv) ≠ 0 → Tt t i = 0)
    (tstart step : K) (hst : 0 < step) (x0 : Fin m → K) (l : List (Ctl K)) (hl : ∀ b ∈ l, 0 < b.step) :
    ∀ e ∈ (run c (netT m s D nv gmin Tt) x0 l (start c tstart step x0)).st.points,
      ∑ k ∈ Finset.range (vdes circ).length, b k * linked circ nv (Rlc.ext e.x) k =
        ∑ k ∈ Finset.range (vdes circ).length, b k * linked circ nv (Rlc.ext x0) k := by
  have hz := (generate_row (fun _ => 0) he hp h).1
  intro e hme
  have := C182_law_plain hmt ho hg hs (n := netT m s D nv gmin Tt) rfl rfl (flux_law (D := D) (gmin := gmin) hnv he hp h hm hb hT)
    tstart step hst x0 l hl e hme
  have hm' : m + 1 = nv + (vdes circ).length := by omega
  have e1 : branchW m nv b ⬝ᵥ (reduce m D *ᵥ e.x) = branchW m nv b ⬝ᵥ (reduce m D *ᵥ x0) := this
  rw [flux_eq hnv he hm' hd hb, flux_eq hnv he hm' hd hb] at e1
  exact neg_injective e1

/-- C182 for loops of inductors with the default options, if the matrices of the steps are regular. -/
theorem C182_flux_regular {c : Cfg K} (hmt : Real c.meth) (ho : Plain c.o) (hms : c.o.meth.std = true)
    {nv m : Nat} {circ : List (Elem K)} {s : Sys K} {D : Mat K} {cmin gmin : K} (hnv : 0 < nv)
    (he : ∀ e ∈ circ, NodesLt nv e) (hp : ∀ e ∈ circ, Proper e) (h : generate circ nv = .ok s) (hm : s.size = m + 1)
    (hd : generateD circ nv (m + 1) cmin = .ok D) {b : Nat → K} (hb : Loop circ b)
    {Tt : K → Fin m → K} (hT : ∀ t, ∀ i : Fin m, nv ≤ i.val + 1 → b (i.val + 1 - nv) ≠ 0 → Tt t i = 0)
    (hdet : ∀ a : K, 0 < a → (reduce m s.M + a • reduce m D + gminMat (nv - 1) gmin).det ≠ 0)
    (tstart step : K) (hst : 0 < step) (x0 : Fin m → K) (l : List (Ctl K)) (hl : ∀ b ∈ l, 0 < b.step) :
    ∀ e ∈ (run c (netT m s D nv gmin Tt) x0 l (start c tstart step x0)).st.points,
      ∑ k ∈ Finset.range (vdes circ).length, b k * linked circ nv (Rlc.ext e.x) k =
        ∑ k ∈ Finset.range (vdes circ).length, b k * linked circ nv (Rlc.ext x0) k := by
  have hz := (generate_row (fun _ => 0) he hp h).1
  intro e hme
  have := C182_law_regular hmt ho hms (n := netT m s D nv gmin Tt) rfl rfl hdet (flux_law (D := D) (gmin := gmin) hnv he hp h hm hb hT)
    tstart step hst x0 l hl e hme
  have hm' : m + 1 = nv + (vdes circ).length := by omega
  have e1 : branchW m nv b ⬝ᵥ (reduce m D *ᵥ e.x) = branchW m nv b ⬝ᵥ (reduce m D *ᵥ x0) := this
  rw [flux_eq hnv he hm' hd hb, flux_eq hnv he hm' hd hb] at e1
  exact neg_injective e1

/-! ### Examples -/

/-- capacitive divider with a load -/
def divider : List (Elem ℚ) := [.V "V1" 1 0 { dc := some 1 }, .C "C1" 1 2 1 none, .C "C2" 2 0 2 none, .R "R1" 1 0 1]

example : (∀ e ∈ divider, NodesLt 3 e) ∧ (∀ e ∈ divider, Proper e) ∧
    (∀ e ∈ divider, IsCap e = false → ((term e).1 ∈ ({2} : Finset Nat) ↔ (term e).2 ∈ ({2} : Finset Nat))) := by
  refine ⟨?_, ?_, ?_⟩ <;> simp [divider, NodesLt, Proper, IsCap, term]

example : (generate divider 3).toOption.map (·.size) = some 4 := by decide +kernel

example : (generateD divider 3 4 0).toOption.isSome = true := by decide +kernel

/-- its charge is `2·v₂ - (v₁ - v₂)` -/
example (x : Vec ℚ) : charge divider 0 {2} x = 2 * (x 2 - x 0) - (x 1 - x 2) := by
  simp [charge, divider]
  ring

/-- two inductors in parallel, fed through a resistor -/
def twoL : List (Elem ℚ) := [.V "V1" 1 0 { dc := some 1 }, .R "R1" 1 2 1, .L "L1" 2 0 1 none [], .L "L2" 2 0 3 none []]

example : Loop twoL (fun k => if k = 1 then 1 else if k = 2 then -1 else 0) := by
  constructor
  · intro k hk
    have hk' : k = 1 ∨ k = 2 := by
      by_contra hn
      rw [not_or] at hn
      simp [hn.1, hn.2] at hk
    rcases hk' with rfl | rfl
    · exact ⟨_, _, _, _, _, _, rfl⟩
    · exact ⟨_, _, _, _, _, _, rfl⟩
  · intro x
    have : vdes twoL = [.V "V1" 1 0 { dc := some 1 }, .L "L1" 2 0 1 none [], .L "L2" 2 0 3 none []] := rfl
    simp [volt, this, Finset.sum_range_succ, term]

/-- the flux through the loop is `1·i₁ - 3·i₂` -/
example (x : Vec ℚ) : ∑ k ∈ Finset.range (vdes twoL).length, (if k = 1 then 1 else if k = 2 then -1 else 0) * linked twoL 3 x k =
    x 4 - 3 * x 5 := by
  have : vdes twoL = [.V "V1" 1 0 { dc := some 1 }, .L "L1" 2 0 1 none [], .L "L2" 2 0 3 none []] := rfl
  simp [linked, this, Finset.sum_range_succ, mutualTerm]
  ring

/-- the inductors with a resistor across them -/
def lossy : List (Elem ℚ) := [.R "R1" 1 0 1, .L "L1" 1 0 1 none [], .L "L2" 1 0 3 none []]

/-- its step matrices are regular -/
example (a : ℚ) (ha : 0 < a) : (reduce 3 (okOr (⟨0, fun _ _ => 0, fun _ => 0⟩ : Sys ℚ) (generate lossy 2)).M +
    a • reduce 3 (okOr (fun _ _ => 0) (generateD lossy 2 4 (1 / 4))) + gminMat (2 - 1) (1 / 4) : Matrix (Fin 3) (Fin 3) ℚ).det ≠ 0 := by
  have e1 : reduce 3 (okOr (⟨0, fun _ _ => 0, fun _ => 0⟩ : Sys ℚ) (generate lossy 2)).M = !![1, 1, 1; 1, 0, 0; 1, 0, 0] := by
    ext i j; fin_cases i <;> fin_cases j <;> decide +kernel
  have e2 : reduce 3 (okOr (fun _ _ => 0) (generateD lossy 2 4 (1 / 4))) = (!![1/4, 0, 0; 0, -1, 0; 0, 0, -3] : Matrix (Fin 3) (Fin 3) ℚ) := by
    ext i j; fin_cases i <;> fin_cases j <;> decide +kernel
  have e3 : gminMat (m := 3) (2 - 1) (1 / 4 : ℚ) = !![1/4, 0, 0; 0, 0, 0; 0, 0, 0] := by
    ext i j; fin_cases i <;> fin_cases j <;> decide +kernel
  rw [e1, e2, e3, Matrix.det_fin_three]
  simp
  nlinarith [mul_pos ha ha, mul_pos ha (mul_pos ha ha)]

end circuits

/-- C182 is false for the charge with Gmin, that is, with the default options: a capacitor connected with nothing else loses its
charge. -/
theorem C182_gmin_refuted :
    ∃ e, (run ⟨dflt, .euler, true, 2⟩ ⟨0, !![1], 0, fun _ => 0, 1, 1 / 10 ^ 12, false, fun _ => 0, fun _ => 0, []⟩ ![1] [.keep 1]
      (start ⟨dflt, .euler, true, 2⟩ 0 1 ![1])).st.points = [e] ∧ e.x ≠ (![1] : Fin 1 → ℚ) := by
  set n : Net ℚ 1 := ⟨0, !![1], 0, fun _ => 0, 1, 1 / 10 ^ 12, false, fun _ => 0, fun _ => 0, []⟩ with hn
  have hf : formula (m := 1) .euler true 0 [⟨0, ![1], none⟩] (1 : ℚ) = .ok ⟨1 / 1, fun i => -1 / 1 * (![1] : Fin 1 → ℚ) i, none⟩ := by
    simp [formula, firstIters, startPred, Meth.required, Meth.df, eulerDf, DF.implicitEuler, xAt]
  obtain ⟨z, e1, e2⟩ := dcSolve_regular (c := n.at ⟨1 / 1, fun i => -1 / 1 * (![1] : Fin 1 → ℚ) i, none⟩ (0 + 1))
    (o := dflt) ⟨rfl, by decide⟩ rfl ⟨rfl, rfl⟩ (1 / 10 ^ 12) (by
      show ((0 + (1 / 1 : ℚ) • !![1] : Matrix (Fin 1) (Fin 1) ℚ) + gminMat 1 (1 / 10 ^ 12)).det ≠ 0
      rw [one_gmin]; norm_num) (some ![1]) 63
  refine ⟨⟨0 + 1, z, some ((1 / 1 : ℚ) • z + fun i => -1 / 1 * (![1] : Fin 1 → ℚ) i)⟩, ?_, ?_⟩
  · unfold run pass
    have hf' : formula (⟨dflt, .euler, true, 2⟩ : Cfg ℚ).meth true 0
      (start ⟨dflt, .euler, true, 2⟩ 0 1 ![1]).buf 1 = _ := hf
    simp only [start] at hf' ⊢
    rw [hf']
    have hx : dcSolve dflt (n.at ⟨1 / 1, fun i => -1 / 1 * (![1] : Fin 1 → ℚ) i, none⟩ (0 + 1)) n.gmin
      (some (startX ⟨dflt, .euler, true, 2⟩ ![1] (start ⟨dflt, .euler, true, 2⟩ 0 1 ![1])
        ⟨1 / 1, fun i => -1 / 1 * (![1] : Fin 1 → ℚ) i, none⟩)) = .solved z := e1
    simp only [start] at hx
    simp only [hx]
    rfl
  · intro hz
    simp only at hz
    have e3 : (0 + (1 / 1 : ℚ) • !![1] + gminMat 1 (1 / 10 ^ 12) : Matrix (Fin 1) (Fin 1) ℚ) *ᵥ z +
      (0 + 0 + (!![1] : Matrix (Fin 1) (Fin 1) ℚ) *ᵥ (fun i => -1 / 1 * (![1] : Fin 1 → ℚ) i)) = 0 := e2
    rw [one_gmin, hz] at e3
    have := congrFun e3 0
    simp [vecHead] at this

end Verif.Conserve
