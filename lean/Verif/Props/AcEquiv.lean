import Verif.Props.AcLaws
import Mathlib.Tactic.FieldSimp
import Mathlib.Tactic.LinearCombination

/-!
# C217: circuits that are equivalent by the textbook have the same AC response

Resistors, capacitors and inductors in series may be replaced by one, inductors in parallel as well, stars of resistors by triangles,
sources may be converted. The minimal capacitance `options.cmin` and `options.gmin` load every node, so equivalences with different
numbers of nodes need both to be zero.
-/

namespace Verif.AcEquiv
open Verif.Circuit Verif.Mna Verif.Dyn Verif.Rlc Verif.Recip Verif.AcLaws
open Complex (I)

/-- sum of the phasors of the currents that leave node `r` -/
noncomputable def out (ph : String → Option ℂ) (s : ℂ) (v : Nat → ℂ) (i : List Char → ℂ) (A : List (Elem ℝ)) (r : Nat) : ℂ :=
  (A.map fun e => inj (term e).1 (term e).2 (pcur ph s v i e) r).sum

/-- the names of the currents in the law of an element -/
def refs : Elem ℝ → List (List Char)
  | .V id .. | .E id .. => [upper id]
  | .H id _ _ src _ => [upper id, upper src]
  | .F _ _ _ src _ => [upper src]
  | .L id _ _ _ _ coup => upper id :: coup.map fun cd => upper (if upper id = upper cd.L1 then cd.L2 else cd.L1)
  | _ => []

variable {ph : String → Option ℂ} {s y : ℂ} {v v' : Nat → ℂ} {i i' : List Char → ℂ} {nv : Nat}

theorem pcur_congr {e : Elem ℝ} (hn : NodesLt nv e) (hv : ∀ r, r < nv → v' r = v r) (hi : ∀ w ∈ refs e, i' w = i w) :
    pcur ph s v' i' e = pcur ph s v i e := by
  cases e <;> simp only [NodesLt, pcur, refs, List.mem_cons, List.not_mem_nil, or_false, forall_eq, forall_eq_or_imp] at hn hi ⊢
  case R => rw [hv _ hn.1, hv _ hn.2]
  case C => rw [hv _ hn.1, hv _ hn.2]
  case G => rw [hv _ hn.2.2.1, hv _ hn.2.2.2]
  case F => rw [hi]
  case V => exact hi
  case E => exact hi
  case H => exact hi.1
  case L => exact hi.1

theorem plaw_congr {e : Elem ℝ} (hn : NodesLt nv e) (hv : ∀ r, r < nv → v' r = v r) (hi : ∀ w ∈ refs e, i' w = i w) :
    plaw ph s v' i' e = plaw ph s v i e := by
  cases e <;> simp only [NodesLt, plaw, refs, List.mem_cons, List.not_mem_nil, or_false, forall_eq, forall_eq_or_imp] at hn hi ⊢
  case V => rw [hv _ hn.1, hv _ hn.2]
  case E => rw [hv _ hn.1, hv _ hn.2.1, hv _ hn.2.2.1, hv _ hn.2.2.2]
  case H => rw [hv _ hn.1, hv _ hn.2, hi.2]
  case L id a b l ic coup =>
    rw [hv _ hn.1, hv _ hn.2, pflux, pflux, hi.1]
    congr 4
    apply List.map_congr_left
    intro cd hcd
    rw [hi.2 _ (List.mem_map.2 ⟨cd, hcd, rfl⟩)]

theorem out_append (A B : List (Elem ℝ)) (r : Nat) : out ph s v i (A ++ B) r = out ph s v i A r + out ph s v i B r := by
  simp [out]

theorem out_new {A : List (Elem ℝ)} (h : ∀ e ∈ A, NodesLt nv e) (hnv : 0 < nv) (r : Nat) (hr : nv ≤ r) : out ph s v i A r = 0 := by
  unfold out
  apply sum_zero_of
  intro e he
  have hn := h e he
  apply Laws.inj_other
  · cases e <;> simp only [NodesLt, term] at hn ⊢ <;> omega
  · cases e <;> simp only [NodesLt, term] at hn ⊢ <;> omega

/-- the part `A` of a circuit is replaced by `B` -/
theorem replace {nA nB : Nat} (hnv : 0 < nv) (hA : nv ≤ nA) {C A B : List (Elem ℝ)} (he : ∀ e ∈ C, NodesLt nv e)
    (ho : Phasors (C ++ A) nA ph s y v i) (hv : ∀ r, r < nv → v' r = v r) (hi : ∀ e ∈ C, ∀ w ∈ refs e, i' w = i w)
    (h1 : ∀ r, 0 < r → r < nv → out ph s v' i' B r = out ph s v i A r)
    (h2 : ∀ r, nv ≤ r → r < nB → out ph s v' i' B r + y * v' r = 0)
    (h3 : ∀ e ∈ B, e.vde = true → plaw ph s v' i' e = 0) : Phasors (C ++ B) nB ph s y v' i' := by
  have hC : ∀ r, out ph s v' i' C r = out ph s v i C r := by
    intro r
    unfold out
    congr 1
    apply List.map_congr_left
    intro e hm
    rw [pcur_congr (he e hm) hv (hi e hm)]
  refine ⟨by rw [hv 0 hnv]; exact ho.ground, fun r h0 hr => ?_, fun e hm hvd => ?_⟩
  · change out ph s v' i' (C ++ B) r + y * v' r = 0
    rw [out_append]
    by_cases hlt : r < nv
    · rw [h1 r h0 hlt, hC, ← out_append, hv r hlt]
      exact ho.node r h0 (by omega)
    · rw [out_new he hnv r (by omega), zero_add]
      exact h2 r (by omega) hr
  · rcases List.mem_append.1 hm with hm | hm
    · rw [plaw_congr (he e hm) hv (hi e hm)]
      exact ho.branch e (List.mem_append_left _ hm) hvd
    · exact h3 e hm hvd

/-! ### Equivalences -/

variable {C : List (Elem ℝ)} {a b c : Nat}

/-- `A` may be replaced by `B` in circuits with the elements `C` and `nv` nodes -/
def Equiv (C : List (Elem ℝ)) (nv : Nat) (ph : String → Option ℂ) (s y : ℂ) (A : List (Elem ℝ)) (nA : Nat) (B : List (Elem ℝ))
    (nB : Nat) : Prop :=
  ∀ v i, Phasors (C ++ A) nA ph s y v i → ∃ v' i', Phasors (C ++ B) nB ph s y v' i' ∧ (∀ r, r < nv → v' r = v r) ∧
    ∀ e ∈ C, ∀ w ∈ refs e, i' w = i w

/-- two-terminal elements in series: currents `x` through both give the current of the one -/
theorem series (hnv : 0 < nv) (he : ∀ e ∈ C, NodesLt nv e) (ha : a < nv) (hb : b < nv) {A : Elem ℝ} {B1 B2 : Elem ℝ}
    (hA : term A = (a, b)) (h1 : term B1 = (a, nv)) (h2 : term B2 = (nv, b)) (vn : ℂ)
    (ho : Phasors (C ++ [A]) nv ph s 0 v i) (hi : ∀ e ∈ C, ∀ w ∈ refs e, i' w = i w)
    (c1 : pcur ph s (Function.update v nv vn) i' B1 = pcur ph s v i A)
    (c2 : pcur ph s (Function.update v nv vn) i' B2 = pcur ph s v i A)
    (l1 : B1.vde = true → plaw ph s (Function.update v nv vn) i' B1 = 0)
    (l2 : B2.vde = true → plaw ph s (Function.update v nv vn) i' B2 = 0) :
    Phasors (C ++ [B1, B2]) (nv + 1) ph s 0 (Function.update v nv vn) i' := by
  refine replace hnv le_rfl he ho (fun r hr => Function.update_of_ne (by omega) _ _) hi (fun r h0 hr => ?_) (fun r h0 hr => ?_)
    (fun e hm hv => ?_)
  · simp only [out, List.map_cons, List.map_nil, List.sum_cons, List.sum_nil, c1, c2, hA, h1, h2, inj]
    have : r ≠ nv := by omega
    simp only [this, if_false]
    ring
  · have : r = nv := by omega
    subst this
    simp only [out, List.map_cons, List.map_nil, List.sum_cons, List.sum_nil, c1, c2, h1, h2, inj]
    have e1 : ¬ r = a := by omega
    have e2 : ¬ r = b := by omega
    simp [e1, e2]
  · simp only [List.mem_cons, List.not_mem_nil, or_false] at hm
    rcases hm with rfl | rfl
    · exact l1 hv
    · exact l2 hv

/-- C217: resistors in series. -/
theorem C217_resistors (hnv : 0 < nv) (he : ∀ e ∈ C, NodesLt nv e) (ha : a < nv) (hb : b < nv) {r1 r2 : ℝ} (h1 : r1 ≠ 0) (h2 : r2 ≠ 0)
    (h12 : r1 + r2 ≠ 0) (id id1 id2 : String) :
    Equiv C nv ph s 0 [.R id a b (r1 + r2)] nv [.R id1 a nv r1, .R id2 nv b r2] (nv + 1) := by
  intro v i ho
  have g1 : (r1 : ℂ) ≠ 0 := by exact_mod_cast h1
  have g2 : (r2 : ℂ) ≠ 0 := by exact_mod_cast h2
  have g12 : (r1 : ℂ) + r2 ≠ 0 := by exact_mod_cast h12
  have u : ∀ x, x < nv → Function.update v nv (v a - r1 * ((v a - v b) / (r1 + r2))) x = v x := fun x hx =>
    Function.update_of_ne (by omega) _ _
  refine ⟨_, _, series hnv he ha hb rfl rfl rfl (v a - r1 * ((v a - v b) / (r1 + r2))) ho (fun _ _ _ _ => rfl) ?_ ?_
    (by simp [Elem.vde]) (by simp [Elem.vde]), u, fun _ _ _ _ => rfl⟩
  · simp only [pcur, Function.update_self, u a ha]
    push_cast
    field_simp
    ring
  · simp only [pcur, Function.update_self, u b hb]
    push_cast
    field_simp
    ring

/-- C217: capacitors in series. -/
theorem C217_capacitors (hnv : 0 < nv) (he : ∀ e ∈ C, NodesLt nv e) (ha : a < nv) (hb : b < nv) {k1 k2 : ℝ} (h12 : k1 + k2 ≠ 0)
    (id id1 id2 : String) (ic ic1 ic2 : Option ℝ) :
    Equiv C nv ph s 0 [.C id a b (k1 * k2 / (k1 + k2)) ic] nv [.C id1 a nv k1 ic1, .C id2 nv b k2 ic2] (nv + 1) := by
  intro v i ho
  have g12 : (k1 : ℂ) + k2 ≠ 0 := by exact_mod_cast h12
  have u : ∀ x, x < nv → Function.update v nv ((k1 * v a + k2 * v b) / (k1 + k2)) x = v x := fun x hx =>
    Function.update_of_ne (by omega) _ _
  refine ⟨_, _, series hnv he ha hb rfl rfl rfl ((k1 * v a + k2 * v b) / (k1 + k2)) ho (fun _ _ _ _ => rfl) ?_ ?_
    (by simp [Elem.vde]) (by simp [Elem.vde]), u, fun _ _ _ _ => rfl⟩
  · simp only [pcur, Function.update_self, u a ha]
    push_cast
    field_simp
    ring
  · simp only [pcur, Function.update_self, u b hb]
    push_cast
    field_simp
    ring

/-- the names are not used in the circuit -/
def Unused (C : List (Elem ℝ)) (ids : List String) : Prop := ∀ e ∈ C, ∀ w ∈ refs e, ∀ id ∈ ids, w ≠ upper id

/-- C217: inductors in series, without coupling. -/
theorem C217_inductors (hnv : 0 < nv) (he : ∀ e ∈ C, NodesLt nv e) (ha : a < nv) (hb : b < nv) (l1 l2 : ℝ)
    (id id1 id2 : String) (ic ic1 ic2 : Option ℝ) (hf : Unused C [id1, id2]) :
    Equiv C nv ph s 0 [.L id a b (l1 + l2) ic []] nv [.L id1 a nv l1 ic1 [], .L id2 nv b l2 ic2 []] (nv + 1) := by
  intro v i ho
  have hl := ho.branch (.L id a b (l1 + l2) ic []) (by simp) rfl
  simp only [plaw, pflux, List.map_nil, List.sum_nil, add_zero] at hl
  push_cast at hl
  have u : ∀ x, x < nv → Function.update v nv (v a - s * l1 * i (upper id)) x = v x := fun x hx =>
    Function.update_of_ne (by omega) _ _
  have hi : ∀ e ∈ C, ∀ w ∈ refs e, Function.update (Function.update i (upper id1) (i (upper id))) (upper id2) (i (upper id)) w = i w := by
    intro e hm w hw
    rw [Function.update_of_ne (hf e hm w hw id2 (by simp)), Function.update_of_ne (hf e hm w hw id1 (by simp))]
  have n1 : Function.update (Function.update i (upper id1) (i (upper id))) (upper id2) (i (upper id)) (upper id1) = i (upper id) := by
    by_cases h : upper id1 = upper id2
    · rw [h, Function.update_self]
    · rw [Function.update_of_ne h, Function.update_self]
  refine ⟨_, _, series hnv he ha hb rfl rfl rfl (v a - s * l1 * i (upper id)) ho hi ?_ ?_ ?_ ?_, u, hi⟩
  · simp only [pcur, n1]
  · simp only [pcur, Function.update_self]
  · intro _
    simp only [plaw, pflux, List.map_nil, List.sum_nil, add_zero, u a ha, n1]
    rw [Function.update_self]
    ring
  · intro _
    simp only [plaw, pflux, List.map_nil, List.sum_nil, add_zero, u b hb]
    rw [Function.update_self, Function.update_self]
    linear_combination hl

/-- C217: inductors in parallel, without coupling, also with `options.gmin` and `options.cmin`. -/
theorem C217_inductors_parallel (hnv : 0 < nv) (he : ∀ e ∈ C, NodesLt nv e) {l1 l2 : ℝ} (h12 : l1 + l2 ≠ 0)
    (id id1 id2 : String) (hid : upper id1 ≠ upper id2) (ic ic1 ic2 : Option ℝ) (hf : Unused C [id1, id2]) :
    Equiv C nv ph s y [.L id a b (l1 * l2 / (l1 + l2)) ic []] nv [.L id1 a b l1 ic1 [], .L id2 a b l2 ic2 []] nv := by
  intro v i ho
  have hl := ho.branch (.L id a b (l1 * l2 / (l1 + l2)) ic []) (by simp) rfl
  simp only [plaw, pflux, List.map_nil, List.sum_nil, add_zero] at hl
  push_cast at hl
  have g : (l1 : ℂ) + l2 ≠ 0 := by exact_mod_cast h12
  refine ⟨v, Function.update (Function.update i (upper id1) (l2 / (l1 + l2) * i (upper id))) (upper id2)
    (l1 / (l1 + l2) * i (upper id)), ?_, fun _ _ => rfl, ?_⟩
  · refine replace hnv le_rfl he ho (fun _ _ => rfl) ?_ (fun r h0 hr => ?_) (fun r h0 hr => absurd hr (by omega)) (fun e hm hv => ?_)
    · intro e hm w hw
      rw [Function.update_of_ne (hf e hm w hw id2 (by simp)), Function.update_of_ne (hf e hm w hw id1 (by simp))]
    · simp only [out, List.map_cons, List.map_nil, List.sum_cons, List.sum_nil, add_zero, pcur, term, Function.update_self,
        Function.update_of_ne hid, inj_parallel]
      congr 1
      field_simp
      ring
    · simp only [List.mem_cons, List.not_mem_nil, or_false] at hm
      rcases hm with rfl | rfl
      · simp only [plaw, pflux, List.map_nil, List.sum_nil, add_zero, Function.update_self, Function.update_of_ne hid]
        rw [← hl]
        field_simp
      · simp only [plaw, pflux, List.map_nil, List.sum_nil, add_zero, Function.update_self]
        rw [← hl]
        field_simp
  · intro e hm w hw
    rw [Function.update_of_ne (hf e hm w hw id2 (by simp)), Function.update_of_ne (hf e hm w hw id1 (by simp))]

/-- the current of a branch of a star, from the currents of the triangle -/
theorem star_cur {x y z P : ℂ} (hx : x ≠ 0) (hP : P ≠ 0) (h : P = x * y + y * z + z * x) (va vb vc : ℂ) :
    (va - (y * z * va + z * x * vb + x * y * vc) / P) / x = (va - vb) / (P / z) - (vc - va) / (P / y) := by
  field_simp
  linear_combination va * h

/-- C217: a triangle of resistors becomes a star. -/
theorem C217_star (hnv : 0 < nv) (he : ∀ e ∈ C, NodesLt nv e) (ha : a < nv) (hb : b < nv) (hc : c < nv) {ra rb rc : ℝ}
    (ga : ra ≠ 0) (gb : rb ≠ 0) (gc : rc ≠ 0) (hp : ra * rb + rb * rc + rc * ra ≠ 0) (ida idb idc id1 id2 id3 : String) :
    Equiv C nv ph s 0
      [.R ida b c ((ra * rb + rb * rc + rc * ra) / ra), .R idb c a ((ra * rb + rb * rc + rc * ra) / rb),
        .R idc a b ((ra * rb + rb * rc + rc * ra) / rc)] nv
      [.R id1 a nv ra, .R id2 b nv rb, .R id3 c nv rc] (nv + 1) := by
  intro v i ho
  have fa : (ra : ℂ) ≠ 0 := by exact_mod_cast ga
  have fb : (rb : ℂ) ≠ 0 := by exact_mod_cast gb
  have fc : (rc : ℂ) ≠ 0 := by exact_mod_cast gc
  have fp : (ra : ℂ) * rb + rb * rc + rc * ra ≠ 0 := by exact_mod_cast hp
  have u : ∀ x, x < nv → Function.update v nv ((rb * rc * v a + rc * ra * v b + ra * rb * v c) / (ra * rb + rb * rc + rc * ra)) x = v x :=
    fun x hx => Function.update_of_ne (by omega) _ _
  refine ⟨_, i, replace (v' := Function.update v nv ((rb * rc * v a + rc * ra * v b + ra * rb * v c) / (ra * rb + rb * rc + rc * ra)))
    hnv le_rfl he ho u (fun _ _ _ _ => rfl) (fun r h0 hr => ?_) (fun r h0 hr => ?_) (fun e hm hv => ?_), u, fun _ _ _ _ => rfl⟩
  · simp only [out, List.map_cons, List.map_nil, List.sum_cons, List.sum_nil, add_zero, pcur, term, inj, u a ha, u b hb, u c hc,
      Function.update_self]
    have : r ≠ nv := by omega
    simp only [this, if_false]
    push_cast
    have e1 := star_cur (y := rb) (z := rc) fa fp rfl (v a) (v b) (v c)
    have e2 := star_cur (y := rc) (z := ra) fb (P := ra * rb + rb * rc + rc * ra) fp (by ring) (v b) (v c) (v a)
    have e3 := star_cur (y := ra) (z := rb) fc (P := ra * rb + rb * rc + rc * ra) fp (by ring) (v c) (v a) (v b)
    rw [show (rc : ℂ) * ra * v b + ra * rb * v c + rb * rc * v a = rb * rc * v a + rc * ra * v b + ra * rb * v c by ring] at e2
    rw [show (ra : ℂ) * rb * v c + rb * rc * v a + rc * ra * v b = rb * rc * v a + rc * ra * v b + ra * rb * v c by ring] at e3
    rw [e1, e2, e3]
    split_ifs <;> ring
  · have : r = nv := by omega
    subst this
    simp only [out, List.map_cons, List.map_nil, List.sum_cons, List.sum_nil, add_zero, pcur, term, inj, u a ha, u b hb, u c hc,
      Function.update_self]
    have e1 : ¬ r = a := by omega
    have e2 : ¬ r = b := by omega
    have e3 : ¬ r = c := by omega
    have f1 := star_cur (y := rb) (z := rc) fa fp rfl (v a) (v b) (v c)
    have f2 := star_cur (y := rc) (z := ra) fb (P := ra * rb + rb * rc + rc * ra) fp (by ring) (v b) (v c) (v a)
    have f3 := star_cur (y := ra) (z := rb) fc (P := ra * rb + rb * rc + rc * ra) fp (by ring) (v c) (v a) (v b)
    rw [show (rc : ℂ) * ra * v b + ra * rb * v c + rb * rc * v a = rb * rc * v a + rc * ra * v b + ra * rb * v c by ring] at f2
    rw [show (ra : ℂ) * rb * v c + rb * rc * v a + rc * ra * v b = rb * rc * v a + rc * ra * v b + ra * rb * v c by ring] at f3
    rw [f1, f2, f3]
    simp only [e1, e2, e3, if_false, if_true, zero_mul, add_zero]
    ring
  · simp only [List.mem_cons, List.not_mem_nil, or_false] at hm
    rcases hm with rfl | rfl | rfl <;> simp [Elem.vde] at hv

/-- C217: a current source with a resistor beside it becomes a voltage source with the resistor in series. -/
theorem C217_sources (hnv : 0 < nv) (he : ∀ e ∈ C, NodesLt nv e) (ha : a < nv) (hb : b < nv) {r : ℝ} (hr : r ≠ 0)
    {rid iid vid rid' : String} {u w : Src ℝ} (hs : (ph vid).getD 0 = r * (ph iid).getD 0) (hf : Unused C [vid]) :
    Equiv C nv ph s 0 [.R rid a b r, .I iid b a u] nv [.V vid nv b w, .R rid' a nv r] (nv + 1) := by
  intro v i ho
  have g : (r : ℂ) ≠ 0 := by exact_mod_cast hr
  have hu : ∀ x, x < nv → Function.update v nv (v b + (ph vid).getD 0) x = v x := fun x hx => Function.update_of_ne (by omega) _ _
  have hi : ∀ e ∈ C, ∀ w ∈ refs e, Function.update i (upper vid) ((v a - v b - (ph vid).getD 0) / r) w = i w :=
    fun e hm w hw => Function.update_of_ne (hf e hm w hw vid (by simp)) _ _
  refine ⟨_, _, replace (v' := Function.update v nv (v b + (ph vid).getD 0)) hnv le_rfl he ho hu hi (fun x h0 hx => ?_)
    (fun x h0 hx => ?_) (fun e hm hv => ?_), hu, hi⟩
  · simp only [out, List.map_cons, List.map_nil, List.sum_cons, List.sum_nil, pcur, term, inj, Function.update_self, hu a ha]
    rw [hs]
    have : x ≠ nv := by omega
    have c1 : (v a - (v b + r * (ph iid).getD 0)) / r = (v a - v b) / r - (ph iid).getD 0 := by field_simp; ring
    have c2 : (v a - v b - r * (ph iid).getD 0) / r = (v a - v b) / r - (ph iid).getD 0 := by field_simp
    rw [c1, c2]
    by_cases h1 : x = a <;> by_cases h2 : x = b <;> simp only [h1, h2, this, if_true, if_false] <;> split_ifs <;> ring
  · have : x = nv := by omega
    subst this
    simp only [out, List.map_cons, List.map_nil, List.sum_cons, List.sum_nil, pcur, term, inj, Function.update_self, hu a ha]
    have e1 : ¬ x = a := by omega
    have e2 : ¬ x = b := by omega
    simp [e1, e2]
    ring
  · simp only [List.mem_cons, List.not_mem_nil, or_false] at hm
    rcases hm with rfl | rfl
    · simp only [plaw, Function.update_self, hu b hb]; ring
    · simp [Elem.vde] at hv

/-! ### The results of the analysis -/

/-- a circuit for which the AC analysis can be set up -/
structure Ready (circ : List (Elem ℝ)) (nv m : Nat) (sys : Sys ℝ) (D : Mat ℝ) (cmin : ℝ) : Prop where
  pos : 0 < nv
  unique : UniqueVde circ
  nodes : ∀ e ∈ circ, NodesLt nv e
  proper : ∀ e ∈ circ, Proper e
  gen : generate circ nv = .ok sys
  size : sys.size = m + 1
  dyn : generateAC circ nv sys.size cmin = .ok D

/-- the point is one of the results of an AC analysis of the circuit -/
def Reports (circ : List (Elem ℝ)) (nv m : Nat) (sys : Sys ℝ) (D : Mat ℝ) (ph : String → Option ℂ) (gmin : ℝ)
    (p : ℝ × (Fin m → ℂ)) : Prop :=
  ∃ (o : Ac.AOpts) (t : Ac.SweepType) (start stop : ℝ) (points : Nat) (x0 : Fin m → ℂ) (pts : List (ℝ × (Fin m → ℂ))), Ac.Default o ∧
    Ac.acAnalysis o ⟨reduce m sys.M, reduce m D, 0, reduceV m (genNac (circ.map (Stable.lift ph)) nv).2, nv - 1, gmin⟩ t start stop
      points x0 = .ok (some pts) ∧ p ∈ pts

/-- C217: the AC analyses of two circuits that are equivalent report the same voltages at the nodes they share, and the same currents in
the elements they share, at every frequency, if `options.gmin` and `options.cmin` are zero. -/
theorem C217_results {A B : List (Elem ℝ)} {nA nB mA mB : Nat} {sA sB : Sys ℝ} {DA DB : Mat ℝ}
    (hA : Ready (C ++ A) nA mA sA DA 0) (hB : Ready (C ++ B) nB mB sB DB 0) (h2 : nv ≤ nB)
    (he : ∀ s, Equiv C nv ph s 0 A nA B nB) {p : ℝ × (Fin mA → ℂ)} {q : ℝ × (Fin mB → ℂ)}
    (hp : Reports (C ++ A) nA mA sA DA ph 0 p) (hq : Reports (C ++ B) nB mB sB DB ph 0 q) (hf : p.1 = q.1) :
    (∀ r, r < nv → Rlc.ext q.2 r = Rlc.ext p.2 r) ∧
    ∀ e ∈ C, e.vde = true → Rlc.ext q.2 (nB + branchOf (C ++ B) e.id) = Rlc.ext p.2 (nA + branchOf (C ++ A) e.id) := by
  obtain ⟨o, t, a, b, n, x0, pts, ho, hr, hm⟩ := hp
  obtain ⟨o', t', a', b', n', x0', pts', ho', hr', hm'⟩ := hq
  obtain ⟨g, hg, k1, -⟩ := C174_results hA.pos hA.unique hA.nodes hA.proper hA.gen hA.size hA.dyn ph 0 ho t a b n x0 hr p hm
  obtain ⟨g', hg', -, k2⟩ := C174_results hB.pos hB.unique hB.nodes hB.proper hB.gen hB.size hB.dyn ph 0 ho' t' a' b' n' x0' hr' q hm'
  have e1 : g = 0 := by tauto
  have e2 : g' = 0 := by tauto
  subst e1 e2
  have e3 : ((0 : ℝ) : ℂ) + I * (2 * Real.pi * p.1 : ℝ) * ((0 : ℝ) : ℂ) = 0 := by simp
  have e4 : ((0 : ℝ) : ℂ) + I * (2 * Real.pi * q.1 : ℝ) * ((0 : ℝ) : ℂ) = 0 := by simp
  rw [e3] at k1
  rw [e4, ← hf] at k2
  obtain ⟨v', i', m1, m2, m3⟩ := he _ _ _ k1
  obtain ⟨m4, m5⟩ := k2 v' i' m1
  refine ⟨fun r hr => by rw [← m4 r (by omega), m2 r hr], fun e hm hv => ?_⟩
  rw [← m5 e (by simp [hm]) hv, m3 e hm (upper e.id) (by cases e <;> simp_all [Elem.vde, refs, Elem.id]), pnamed_upper]

/-- C217 refuted: with an admittance at every node (`options.cmin` is not zero by default) a resistor across a source takes another current
if it is made of two. -/
theorem C217_cmin_refuted {r1 r2 : ℝ} (h1 : r1 ≠ 0) (h2 : r2 ≠ 0) (h12 : r1 + r2 ≠ 0) {A : ℂ} (hA : A ≠ 0) (hy : y ≠ 0)
    {v v' : Nat → ℂ} {i i' : List Char → ℂ} {u : Src ℝ}
    (h : Phasors [.V "V1" 1 0 u, .R "R1" 1 0 (r1 + r2)] 2 (fun _ => some A) s y v i)
    (h' : Phasors [.V "V1" 1 0 u, .R "R1" 1 2 r1, .R "R2" 2 0 r2] 3 (fun _ => some A) s y v' i') :
    i' (upper "V1") ≠ i (upper "V1") := by
  intro hi
  have g1 : (r1 : ℂ) ≠ 0 := by exact_mod_cast h1
  have g2 : (r2 : ℂ) ≠ 0 := by exact_mod_cast h2
  have g12 : (r1 : ℂ) + r2 ≠ 0 := by exact_mod_cast h12
  have a1 := h.branch _ (List.mem_cons_self ..) rfl
  have a2 := h.node 1 (by omega) (by omega)
  have b1 := h'.branch _ (List.mem_cons_self ..) rfl
  have b2 := h'.node 1 (by omega) (by omega)
  have b3 := h'.node 2 (by omega) (by omega)
  simp only [plaw, h.ground, h'.ground, Option.getD_some, sub_zero, sub_eq_zero] at a1 b1
  simp only [List.map_cons, List.map_nil, List.sum_cons, List.sum_nil, term, inj, pcur, h.ground, h'.ground, a1, b1] at a2 b2 b3
  norm_num at a2 b2 b3
  rw [hi] at b2
  have c1 : (A - v' 2) / r1 = A / (r1 + r2) := by linear_combination b2 - a2
  have c2 : v' 2 = A * r2 / (r1 + r2) := by
    field_simp at c1 ⊢
    linear_combination -c1
  have c3 : y * v' 2 = 0 := by
    have : v' 2 / r2 = A / (r1 + r2) := by rw [c2]; field_simp
    linear_combination b3 + c1 - this
  rcases mul_eq_zero.1 c3 with h | h
  · exact hy h
  · rw [c2] at h
    exact absurd h (by simp [hA, g2, g12])

/-! ### Examples -/

/-- a source with two inductors in series and a capacitor -/
noncomputable def exC : List (Elem ℝ) := [.V "V1" 1 0 { ac := some 1, dc := some 0 }, .C "C1" 2 0 1 none]

example : (∀ e ∈ exC, NodesLt 3 e) ∧ Unused exC ["L1", "L2"] := by
  constructor
  · simp [exC, NodesLt]
  · simp only [Unused, exC, List.mem_cons, List.not_mem_nil, or_false, forall_eq_or_imp, forall_eq, refs]
    simp only [IsEmpty.forall_iff, implies_true, and_true]
    constructor <;> decide +kernel

/-- the hypotheses of `C217_results` -/
example : ∃ sys D, Ready (exC ++ [.L "L1" 1 3 2 none [], .L "L2" 3 2 3 none []]) 4 6 sys D 0 := by
  have hg : ∃ sys : Sys ℝ, generate (exC ++ [.L "L1" 1 3 2 none [], .L "L2" 3 2 3 none []]) 4 = .ok sys :=
    (C07_assembly_succeeds_iff _ _).2 (by
      simp [exC, CtrlExists, DcGiven]
      intro pre post id n1 n2 src a hh
      have : Elem.H id n1 n2 src a ∈ pre ++ Elem.H id n1 n2 src a :: post := by simp
      rw [← hh] at this
      simp at this)
  obtain ⟨sys, hs⟩ := hg
  have hn : ∀ e ∈ exC ++ [.L "L1" 1 3 2 none [], .L "L2" 3 2 3 none []], NodesLt 4 e := by simp [exC, NodesLt]
  have hp : ∀ e ∈ exC ++ [.L "L1" 1 3 2 none [], .L "L2" 3 2 3 none []], Proper e := by simp [exC, Proper]
  have hS : sys.size = 6 + 1 := by
    rw [(generate_row (fun _ => (0 : ℝ)) hn hp hs).1]
    rfl
  obtain ⟨D, hD⟩ : ∃ D : Mat ℝ, generateAC (exC ++ [.L "L1" 1 3 2 none [], .L "L2" 3 2 3 none []]) 4 7 0 = .ok D := ⟨_, rfl⟩
  refine ⟨sys, D, by omega, ?_, hn, hp, hs, hS, by rw [hS]; exact hD⟩
  unfold UniqueVde
  simp only [exC, List.cons_append, List.nil_append, vdes, List.filter, Elem.vde, List.map_cons, List.map_nil, Elem.id]
  decide +kernel

/-- at 1 rad/s an inductor of 5 H and a capacitor of 1 F have the impedance 4 ohm times the imaginary unit -/
example : Phasors (exC ++ [.L "L0" 1 2 5 none []]) 3 (fun _ => some 4) I 0 (fun n => if n = 1 then 4 else if n = 2 then -1 else 0)
    (fun w => if w = upper "V1" then I else -I) := by
  have h1 : upper "L0" ≠ upper "V1" := by decide +kernel
  refine ⟨by simp, fun r h0 hr => ?_, fun e he hv => ?_⟩
  · have : r = 1 ∨ r = 2 := by omega
    rcases this with rfl | rfl
    · simp [exC, term, inj, pcur, h1]
    · simp [exC, term, inj, pcur, h1]
  · simp only [exC, List.cons_append, List.nil_append, List.mem_cons, List.not_mem_nil, or_false] at he
    rcases he with rfl | rfl | rfl
    · simp [plaw]
    · cases hv
    · simp only [plaw, pflux, h1, if_false]
      simp
      ring_nf
      rw [Complex.I_sq]
      ring

end Verif.AcEquiv
