import Verif.Props.Laws

/-!
Property C178: raising resistances never lowers the power that current sources deliver and never raises the power that voltage
sources deliver (Rayleigh's monotonicity law), because the voltages found minimise the dissipated power (Dirichlet's principle).
-/

namespace Verif.Rayleigh
open Verif.Circuit Verif.Mna Verif.Laws Verif.Rename

variable {K : Type} [Field K] [LinearOrder K] [IsStrictOrderedRing K]

/-- voltage between the terminals -/
def drop (v : Nat → K) (e : Elem K) : K := v (term e).1 - v (term e).2

/-- power turned into heat by the resistors -/
def heat (v : Nat → K) (circ : List (Elem K)) : K := (circ.map fun e => match e with
  | .R _ a b r => (v a - v b) ^ 2 / r
  | _ => 0).sum

/-- power delivered by the current sources -/
def fromI (v : Nat → K) (circ : List (Elem K)) : K := (circ.map fun e => match e with
  | .I _ a b s => -(staticVal s * (v a - v b))
  | _ => 0).sum

/-- power delivered by the voltage sources -/
def fromV (v : Nat → K) (i : List Char → K) (circ : List (Elem K)) : K := (circ.map fun e => match e with
  | .V id a b _ => -(i (upper id) * (v a - v b))
  | _ => 0).sum

/-- elements allowed: resistors of positive value, capacitors, inductors, sources -/
def Passive : Elem K → Prop
  | .R _ _ _ r => 0 < r
  | .C .. | .L .. | .K _ | .V .. | .I .. => True
  | _ => False

/-- voltages that fit the voltage-defined elements -/
structure Fits (circ : List (Elem K)) (w : Nat → K) : Prop where
  ground : w 0 = 0
  drop : ∀ e ∈ circ, match e with
    | .V _ a b s => w a - w b = staticVal s
    | .L _ a b .. => w a - w b = 0
    | _ => True

omit [LinearOrder K] [IsStrictOrderedRing K] in
theorem obeys_fits {circ : List (Elem K)} {nv : Nat} {v : Nat → K} {i : List Char → K} (h : Obeys circ nv 1 v i) : Fits circ v := by
  refine ⟨h.ground, fun e he => ?_⟩
  have hb := h.branch e he
  cases e <;> simp only [Elem.vde, lawOf, true_implies, one_mul] at hb ⊢
  · exact hb
  · exact sub_eq_zero.1 hb

omit [LinearOrder K] [IsStrictOrderedRing K] in
/-- Tellegen: currents that obey Kirchhoff's current law and any voltages -/
theorem tellegen {circ : List (Elem K)} {nv : Nat} {t : K} {v : Nat → K} {i : List Char → K} (hnv : 0 < nv)
    (he : ∀ e ∈ circ, NodesLt nv e) (h : ∀ r, 0 < r → r < nv → leaving t v i circ r = 0) (w : Nat → K) (hw : w 0 = 0) :
    (circ.map fun e => cur t v i e * drop w e).sum = 0 := by
  have key : ∀ l : List (Elem K), (∀ e ∈ l, NodesLt nv e) →
      (l.map fun e => cur t v i e * drop w e).sum = ∑ r ∈ Finset.range nv, w r * leaving t v i l r := by
    intro l hl
    induction l with
    | nil => simp [leaving]
    | cons e l ih =>
      rw [List.map_cons, List.sum_cons, ih fun e' h' => hl e' (by simp [h'])]
      have hsplit : ∀ r, leaving t v i (e :: l) r = inj (term e).1 (term e).2 (cur t v i e) r + leaving t v i l r := by
        intro r; simp [leaving]
      simp only [hsplit, mul_add, Finset.sum_add_distrib]
      congr 1
      have hn := hl e (by simp)
      have h12 : (term e).1 < nv ∧ (term e).2 < nv := by
        cases e <;> simp only [NodesLt, term] at hn ⊢ <;> omega
      have hi : ∀ r, w r * inj (term e).1 (term e).2 (cur t v i e) r =
          (if r = (term e).1 then w r * cur t v i e else 0) - (if r = (term e).2 then w r * cur t v i e else 0) := by
        intro r
        simp only [inj]
        split_ifs <;> ring
      simp only [hi, Finset.sum_sub_distrib, Finset.sum_ite_eq', Finset.mem_range, h12.1, h12.2, if_true, drop]
      ring
  rw [key circ he]
  apply Finset.sum_eq_zero
  intro r hr
  rcases Nat.eq_zero_or_pos r with rfl | h0
  · rw [hw, zero_mul]
  · rw [h r h0 (Finset.mem_range.1 hr), mul_zero]

omit [LinearOrder K] [IsStrictOrderedRing K] in
theorem sum_lin {α : Type} (f g : α → K) (l : List α) : (l.map f).sum - (l.map g).sum = (l.map fun a => f a - g a).sum := by
  induction l with
  | nil => simp
  | cons a l ih => simp only [List.map_cons, List.sum_cons]; rw [← ih]; ring

/-- heat from two sets of voltages -/
def mixed (v w : Nat → K) (circ : List (Elem K)) : K := (circ.map fun e => match e with
  | .R _ a b r => (v a - v b) * (w a - w b) / r
  | _ => 0).sum

/-- what the currents of one set of voltages deliver at another one that fits -/
def given (w : Nat → K) (i : List Char → K) (circ : List (Elem K)) : K := fromI w circ + fromV w i circ

omit [LinearOrder K] [IsStrictOrderedRing K] in
theorem mixed_eq {circ : List (Elem K)} {nv : Nat} {v : Nat → K} {i : List Char → K} (hnv : 0 < nv)
    (he : ∀ e ∈ circ, NodesLt nv e) (hp : ∀ e ∈ circ, match e with
      | .R .. | .C .. | .L .. | .K _ | .V .. | .I .. => True
      | _ => False) (h : Obeys circ nv 1 v i) {w : Nat → K} (hw : Fits circ w) :
    mixed v w circ = given w i circ := by
  have ht := tellegen hnv he h.node w hw.ground
  have : (circ.map fun e => cur 1 v i e * drop w e).sum = mixed v w circ - given w i circ := by
    unfold mixed given fromI fromV
    rw [← List.sum_map_add, sum_lin]
    congr 1
    apply List.map_congr_left
    intro e hm
    have hpe := hp e hm
    have hwe := hw.drop e hm
    cases e <;> simp only [cur, drop, term, one_mul] at hpe hwe ⊢
    case L => rw [hwe]; ring
    all_goals ring
  rw [this, sub_eq_zero] at ht
  exact ht

omit [LinearOrder K] [IsStrictOrderedRing K] in
theorem mixed_self (v : Nat → K) (circ : List (Elem K)) : mixed v v circ = heat v circ := by
  unfold mixed heat
  congr 1
  apply List.map_congr_left
  intro e _
  cases e <;> simp only []
  ring

omit [LinearOrder K] [IsStrictOrderedRing K] in
theorem passive_kind {circ : List (Elem K)} [LinearOrder K] (hp : ∀ e ∈ circ, Passive e) : ∀ e ∈ circ, match e with
      | .R .. | .C .. | .L .. | .K _ | .V .. | .I .. => True
      | _ => False := by
  intro e he
  have := hp e he
  cases e <;> simp_all [Passive]

omit [IsStrictOrderedRing K] in
/-- C178: the resistors turn into heat what the sources deliver. -/
theorem C178_balance {circ : List (Elem K)} {nv : Nat} {v : Nat → K} {i : List Char → K} (hnv : 0 < nv)
    (he : ∀ e ∈ circ, NodesLt nv e) (hp : ∀ e ∈ circ, Passive e) (h : Obeys circ nv 1 v i) :
    heat v circ = fromI v circ + fromV v i circ := by
  rw [← mixed_self, mixed_eq hnv he (passive_kind hp) h (obeys_fits h), given]

theorem square_sum (v w : Nat → K) (circ : List (Elem K)) (hp : ∀ e ∈ circ, Passive e) :
    0 ≤ heat w circ - 2 * mixed v w circ + heat v circ := by
  induction circ with
  | nil => simp [heat, mixed]
  | cons e l ih =>
    have h1 := ih fun e' h' => hp e' (by simp [h'])
    have h2 := hp e (by simp)
    have h3 : heat w (e :: l) - 2 * mixed v w (e :: l) + heat v (e :: l) =
        (heat w l - 2 * mixed v w l + heat v l) + (heat w [e] - 2 * mixed v w [e] + heat v [e]) := by
      simp only [heat, mixed, List.map_cons, List.sum_cons, List.map_nil, List.sum_nil]; ring
    rw [h3]
    apply add_nonneg h1
    cases e <;> simp only [Passive] at h2 <;> simp only [heat, mixed, List.map_cons, List.sum_cons, List.map_nil, List.sum_nil]
    case R id a b r =>
      have : (w a - w b) ^ 2 / r + 0 - 2 * ((v a - v b) * (w a - w b) / r + 0) + ((v a - v b) ^ 2 / r + 0) =
          ((w a - w b) - (v a - v b)) ^ 2 / r := by ring
      rw [this]
      positivity
    all_goals simp

omit [LinearOrder K] [IsStrictOrderedRing K] in
/-- the sources and inductors of the circuit carry the same voltages for both -/
theorem fromV_fits {circ : List (Elem K)} {v w : Nat → K} (hv : Fits circ v) (hw : Fits circ w) (i : List Char → K) :
    fromV v i circ = fromV w i circ := by
  unfold fromV
  congr 1
  apply List.map_congr_left
  intro e he
  have h1 := hv.drop e he
  have h2 := hw.drop e he
  cases e <;> simp only [] at h1 h2 ⊢
  rw [h1, h2]

/-- C178, Dirichlet's principle: of all node voltages that fit the voltage sources and inductors, those of the operating point
have the least heat minus twice what the current sources would deliver. -/
theorem C178_dirichlet {circ : List (Elem K)} {nv : Nat} {v : Nat → K} {i : List Char → K} (hnv : 0 < nv)
    (he : ∀ e ∈ circ, NodesLt nv e) (hp : ∀ e ∈ circ, Passive e) (h : Obeys circ nv 1 v i) {w : Nat → K} (hw : Fits circ w) :
    heat v circ - 2 * fromI v circ ≤ heat w circ - 2 * fromI w circ := by
  have h1 := square_sum v w circ hp
  have h2 := mixed_eq hnv he (passive_kind hp) h hw
  have h3 := C178_balance hnv he hp h
  have h4 := fromV_fits (obeys_fits h) hw i
  unfold given at h2
  linarith

/-- one circuit has larger resistances than the other -/
inductive Raised : Elem K → Elem K → Prop
  | r {id : String} {a b : Nat} {r r' : K} (h : 0 < r) (h' : r ≤ r') : Raised (.R id a b r) (.R id a b r')
  | other {e : Elem K} (h : ∀ id a b r, e ≠ .R id a b r) : Raised e e

theorem raised_heat {circ circ' : List (Elem K)} (h : List.Forall₂ Raised circ circ') (v : Nat → K) :
    heat v circ' ≤ heat v circ := by
  induction h with
  | nil => exact le_refl _
  | cons hr _ ih =>
    simp only [heat, List.map_cons, List.sum_cons] at ih ⊢
    refine add_le_add ?_ ih
    cases hr with
    | r h h' => exact div_le_div_of_nonneg_left (sq_nonneg _) h h'
    | other => exact le_refl _

omit [LinearOrder K] [IsStrictOrderedRing K] in
theorem raised_fits [LinearOrder K] {circ circ' : List (Elem K)} (h : List.Forall₂ Raised circ circ') {w : Nat → K} :
    Fits circ' w ↔ Fits circ w := by
  have hm : (∀ e ∈ circ', match e with
      | .V _ a b s => w a - w b = staticVal s
      | .L _ a b .. => w a - w b = 0
      | _ => True) ↔ ∀ e ∈ circ, match e with
      | .V _ a b s => w a - w b = staticVal s
      | .L _ a b .. => w a - w b = 0
      | _ => True := by
    induction h with
    | nil => simp
    | cons hr _ ih =>
      simp only [List.forall_mem_cons, ih]
      cases hr with
      | r => simp
      | other => rfl
  exact ⟨fun h => ⟨h.ground, hm.1 h.drop⟩, fun h => ⟨h.ground, hm.2 h.drop⟩⟩

omit [IsStrictOrderedRing K] in
theorem raised_fromI {circ circ' : List (Elem K)} (h : List.Forall₂ Raised circ circ') (v : Nat → K) :
    fromI v circ' = fromI v circ := by
  induction h with
  | nil => rfl
  | cons hr _ ih =>
    simp only [fromI, List.map_cons, List.sum_cons] at ih ⊢
    rw [ih]
    cases hr <;> rfl

/-- C178: raising resistances does not lower what the current sources deliver minus what the voltage sources deliver. -/
theorem C178_raised {circ circ' : List (Elem K)} {nv : Nat} {v v' : Nat → K} {i i' : List Char → K} (hnv : 0 < nv)
    (he : ∀ e ∈ circ, NodesLt nv e) (he' : ∀ e ∈ circ', NodesLt nv e) (hp : ∀ e ∈ circ, Passive e)
    (hp' : ∀ e ∈ circ', Passive e) (hr : List.Forall₂ Raised circ circ') (h : Obeys circ nv 1 v i) (h' : Obeys circ' nv 1 v' i') :
    fromI v circ - fromV v i circ ≤ fromI v' circ' - fromV v' i' circ' := by
  have h1 := C178_dirichlet hnv he' hp' h' ((raised_fits hr).2 (obeys_fits h))
  have h2 := raised_heat hr v
  have h3 := C178_balance hnv he hp h
  have h4 := C178_balance hnv he' hp' h'
  have h5 := raised_fromI hr v
  linarith

omit [LinearOrder K] [IsStrictOrderedRing K] in
theorem fromV_zero {circ : List (Elem K)} {v : Nat → K} (hv : Fits circ v) (i : List Char → K)
    (hz : ∀ id a b s, Elem.V id a b s ∈ circ → staticVal s = 0) : fromV v i circ = 0 := by
  unfold fromV
  apply sum_zero_of
  intro e he
  have h1 := hv.drop e he
  cases e <;> simp only [] at h1 ⊢
  rw [h1, hz _ _ _ _ he, mul_zero, neg_zero]

omit [LinearOrder K] [IsStrictOrderedRing K] in
theorem fromI_zero {circ : List (Elem K)} (v : Nat → K) (hz : ∀ id a b s, Elem.I id a b s ∈ circ → staticVal s = 0) :
    fromI v circ = 0 := by
  unfold fromI
  apply sum_zero_of
  intro e he
  cases e <;> simp only []
  rw [hz _ _ _ _ he, zero_mul, neg_zero]

/-! ### Operating points -/

section
open Matrix Verif.Rlc Verif.Bound

theorem reported_obeys {circ : List (Elem K)} {nv m : Nat} {s : Sys K} {gmin : K} (hr : Ready circ nv m s gmin)
    {o : Op.OOpts K} (ho : Op.Plain o) (hstd : o.meth.std = true) {x0 : Option (Fin m → K)} {x : Fin m → K} {err : K}
    (h : Op.opAnalysis o (opCirc m nv s) gmin x0 = some (some ⟨x, err⟩)) :
    Obeys circ nv 1 (Rlc.ext x) (named circ nv (Rlc.ext x)) := by
  obtain ⟨y, e1, e2, -⟩ := C171_op hr.pos hr.unique hr.nodes hr.proper hr.gen hr.size ho hstd gmin hr.det hr.detG x0
  rw [h] at e1
  cases e1
  exact e2

/-- C178: a circuit driven by current sources (the voltage sources are ammeters): with larger resistances `op_analysis` reports
voltages at which the sources deliver at least as much power. -/
theorem C178_current {circ circ' : List (Elem K)} {nv m : Nat} {s s' : Sys K} {gmin : K} (hr : Ready circ nv m s gmin)
    (hr' : Ready circ' nv m s' gmin) {o : Op.OOpts K} (ho : Op.Plain o) (hstd : o.meth.std = true) {x0 x0' : Option (Fin m → K)}
    {x x' : Fin m → K} {err err' : K} (h : Op.opAnalysis o (opCirc m nv s) gmin x0 = some (some ⟨x, err⟩))
    (h' : Op.opAnalysis o (opCirc m nv s') gmin x0' = some (some ⟨x', err'⟩)) (hp : ∀ e ∈ circ, Passive e)
    (hp' : ∀ e ∈ circ', Passive e) (hz : ∀ id a b s, Elem.V id a b s ∈ circ → staticVal s = 0)
    (hup : List.Forall₂ Raised circ circ') : fromI (Rlc.ext x) circ ≤ fromI (Rlc.ext x') circ' := by
  have o1 := reported_obeys hr ho hstd h
  have o2 := reported_obeys hr' ho hstd h'
  have := C178_raised hr.pos hr.nodes hr'.nodes hp hp' hup o1 o2
  have z2 : ∀ id a b s, Elem.V id a b s ∈ circ' → staticVal s = 0 := by
    intro id a b s hm
    have key : ∀ {l l' : List (Elem K)}, List.Forall₂ Raised l l' → Elem.V id a b s ∈ l' → Elem.V id a b s ∈ l := by
      intro l l' hf
      induction hf with
      | nil => exact fun h => h
      | cons hr _ ih =>
        intro hm
        rcases List.mem_cons.1 hm with e | hm
        · cases hr with
          | r => cases e
          | other => rw [← e]; simp
        · exact List.mem_cons_of_mem _ (ih hm)
    exact hz id a b s (key hup hm)
  rw [fromV_zero (obeys_fits o1) _ hz, fromV_zero (obeys_fits o2) _ z2] at this
  linarith

/-- C178: a circuit driven by voltage sources: with larger resistances they deliver at most as much power. -/
theorem C178_voltage {circ circ' : List (Elem K)} {nv m : Nat} {s s' : Sys K} {gmin : K} (hr : Ready circ nv m s gmin)
    (hr' : Ready circ' nv m s' gmin) {o : Op.OOpts K} (ho : Op.Plain o) (hstd : o.meth.std = true) {x0 x0' : Option (Fin m → K)}
    {x x' : Fin m → K} {err err' : K} (h : Op.opAnalysis o (opCirc m nv s) gmin x0 = some (some ⟨x, err⟩))
    (h' : Op.opAnalysis o (opCirc m nv s') gmin x0' = some (some ⟨x', err'⟩)) (hp : ∀ e ∈ circ, Passive e)
    (hp' : ∀ e ∈ circ', Passive e) (hz : ∀ id a b s, Elem.I id a b s ∈ circ → staticVal s = 0)
    (hup : List.Forall₂ Raised circ circ') :
    fromV (Rlc.ext x') (named circ' nv (Rlc.ext x')) circ' ≤ fromV (Rlc.ext x) (named circ nv (Rlc.ext x)) circ := by
  have o1 := reported_obeys hr ho hstd h
  have o2 := reported_obeys hr' ho hstd h'
  have := C178_raised hr.pos hr.nodes hr'.nodes hp hp' hup o1 o2
  have i1 := raised_fromI hup (Rlc.ext x')
  rw [i1, fromI_zero _ hz, fromI_zero _ hz] at this
  linarith

omit [LinearOrder K] [IsStrictOrderedRing K] in
theorem fromI_append (v : Nat → K) (A B : List (Elem K)) : fromI v (A ++ B) = fromI v A + fromI v B := by
  simp [fromI]

/-- C178: the resistance between two nodes, measured with a current source, does not fall when a resistance of the network is
raised. -/
theorem C178_resistance {X X' : List (Elem K)} {id : String} {a b : Nat} {u : Src K} (hu : 0 < staticVal u) {nv m : Nat} {s s' : Sys K}
    {gmin : K} (hr : Ready (X ++ [.I id a b u]) nv m s gmin) (hr' : Ready (X' ++ [.I id a b u]) nv m s' gmin)
    {o : Op.OOpts K} (ho : Op.Plain o) (hstd : o.meth.std = true) {x0 x0' : Option (Fin m → K)}
    {x x' : Fin m → K} {err err' : K} (h : Op.opAnalysis o (opCirc m nv s) gmin x0 = some (some ⟨x, err⟩))
    (h' : Op.opAnalysis o (opCirc m nv s') gmin x0' = some (some ⟨x', err'⟩)) (hp : ∀ e ∈ X, Passive e) (hp' : ∀ e ∈ X', Passive e)
    (hz : ∀ id a b s, Elem.V id a b s ∈ X → staticVal s = 0) (hzi : ∀ id a b s, Elem.I id a b s ∈ X → staticVal s = 0)
    (hup : List.Forall₂ Raised X X') :
    (Rlc.ext x b - Rlc.ext x a) / staticVal u ≤ (Rlc.ext x' b - Rlc.ext x' a) / staticVal u := by
  have hall : List.Forall₂ Raised (X ++ [.I id a b u]) (X' ++ [.I id a b u]) :=
    List.rel_append hup (.cons (.other (by intros; simp)) .nil)
  have hpa : ∀ (Y : List (Elem K)), (∀ e ∈ Y, Passive e) → ∀ e ∈ Y ++ [Elem.I id a b u], Passive e := by
    intro Y hY e hm
    rcases List.mem_append.1 hm with hm | hm
    · exact hY e hm
    · rw [List.mem_singleton.1 hm]; trivial
  have := C178_current hr hr' ho hstd h h' (hpa X hp) (hpa X' hp') (by
    intro id' a' b' s' hm
    rcases List.mem_append.1 hm with hm | hm
    · exact hz _ _ _ _ hm
    · simp at hm) hall
  rw [raised_fromI hall, fromI_append, fromI_append, fromI_zero _ hzi, fromI_zero _ hzi] at this
  simp only [fromI, List.map_cons, List.map_nil, List.sum_cons, List.sum_nil, add_zero, zero_add, neg_le_neg_iff] at this
  have h2 := le_of_mul_le_mul_left this hu
  exact div_le_div_of_nonneg_right (by linarith) hu.le

end

/-! ### Example -/

/-- 3 A into 2 ohm parallel to 1 + 1 ohm -/
def low : List (Elem ℚ) := [.R "R1" 1 0 2, .R "R2" 1 2 1, .R "R3" 2 0 1, .I "I1" 0 1 { dc := some 3 }]
/-- 6 ohm instead of 2 -/
def high : List (Elem ℚ) := [.R "R1" 1 0 6, .R "R2" 1 2 1, .R "R3" 2 0 1, .I "I1" 0 1 { dc := some 3 }]

example : Ready low 3 2 (Bound.sysOf low 3) (1 / 1000) where
  pos := by omega
  unique := by unfold UniqueVde; decide +kernel
  nodes := by simp [low, NodesLt]
  proper := by simp [low, Proper]
  gen := rfl
  size := rfl
  det := by simp only [Matrix.det_fin_two]; decide +kernel
  detG := by simp only [Matrix.det_fin_two]; decide +kernel

example : List.Forall₂ Raised low high := by
  unfold low high
  exact .cons (.r (by norm_num) (by norm_num)) (.cons (.r (by norm_num) (by norm_num)) (.cons (.r (by norm_num) (by norm_num))
    (.cons (.other (by intros; simp)) .nil)))

example : (∀ e ∈ low, Passive e) ∧ Obeys low 3 1 (fun r => if r = 1 then 3 else if r = 2 then 3 / 2 else 0) (fun _ => 0) ∧
    Obeys high 3 1 (fun r => if r = 1 then 9 / 2 else if r = 2 then 9 / 4 else 0) (fun _ => 0) := by
  refine ⟨by simp [low, Passive], ⟨rfl, ?_, by simp [low, Elem.vde]⟩, ⟨rfl, ?_, by simp [high, Elem.vde]⟩⟩
  · intro r h0 hr
    have : r = 1 ∨ r = 2 := by omega
    rcases this with rfl | rfl <;> (simp [leaving, low, inj, term, cur, staticVal]; try norm_num)
  · intro r h0 hr
    have : r = 1 ∨ r = 2 := by omega
    rcases this with rfl | rfl <;> (simp [leaving, high, inj, term, cur, staticVal]; try norm_num)

end Verif.Rayleigh
