import Verif.Model.Testing
import Mathlib.Data.List.Perm.Basic
import Mathlib.Data.List.Forall2
import Mathlib.Tactic.Linarith
import Mathlib.Tactic.NormNum
import Mathlib.Algebra.Order.Ring.Rat

/-!
Properties C175 to C177: what a passed regression test says, what becomes of its references, and what it leaves behind.
-/

namespace Verif.Testing

variable {K E : Type} [Field K] [LinearOrder K] [IsStrictOrderedRing K]

/-- a spline goes through its points -/
def Interp (env : Env K E) : Prop := ∀ xs ys f, env.spline xs ys = some f → xs.map f = ys

/-- two values agree within the tolerances -/
def Agree (env : Env K E) (x ref : K) : Prop := |x - ref| ≤ env.ea + env.er * |ref|

omit [Field K] [LinearOrder K] [IsStrictOrderedRing K] in
theorem forall2_map_iff {α : Type} {R : K → K → Prop} (f g : α → K) (l : List α) :
    List.Forall₂ R (l.map f) (l.map g) ↔ ∀ u ∈ l, R (f u) (g u) := by
  induction l with
  | nil => simp
  | cons a l ih => simp [ih]

omit [IsStrictOrderedRing K] in
theorem compare_ok {env : Env K E} {x refx a b : List K} :
    compare env x refx a b = .ok () ↔ ∃ f g, env.spline x a = some f ∧ env.spline refx b = some g ∧
      ∀ u ∈ x, Agree env (f u) (g u) := by
  unfold compare
  cases hf : env.spline x a with
  | none => simp
  | some f =>
    cases hg : env.spline refx b with
    | none => simp
    | some g =>
      by_cases h : (x.all fun u => close env.er env.ea (f u) (g u)) = true
      · simp only [h, if_true, true_iff]
        refine ⟨f, g, rfl, rfl, fun u hu => ?_⟩
        have := List.all_eq_true.1 h u hu
        simpa [close, Agree] using this
      · simp only [h, Bool.false_eq_true, if_false, reduceCtorEq, false_iff, not_exists, not_and]
        rintro f' g' hf' hg' hall
        cases hf'; cases hg'
        exact h (List.all_eq_true.2 fun u hu => by simpa [close, Agree] using hall u hu)

omit [IsStrictOrderedRing K] in
/-- comparison with a reference at the same abscissae -/
theorem compare_same {env : Env K E} (hi : Interp env) {x a b : List K} :
    compare env x x a b = .ok () → List.Forall₂ (Agree env) a b := by
  rw [compare_ok]
  rintro ⟨f, g, hf, hg, h⟩
  rw [← hi _ _ _ hf, ← hi _ _ _ hg, forall2_map_iff]
  exact h

omit [IsStrictOrderedRing K] in
theorem compare_same_iff {env : Env K E} (hi : Interp env) {x a b : List K} (ha : (env.spline x a).isSome)
    (hb : (env.spline x b).isSome) : compare env x x a b = .ok () ↔ List.Forall₂ (Agree env) a b := by
  refine ⟨compare_same hi, fun h => ?_⟩
  obtain ⟨f, hf⟩ := Option.isSome_iff_exists.1 ha
  obtain ⟨g, hg⟩ := Option.isSome_iff_exists.1 hb
  rw [compare_ok]
  rw [← hi _ _ _ hf, ← hi _ _ _ hg, forall2_map_iff] at h
  exact ⟨f, g, hf, hg, h⟩

/-- both parts agree -/
def AgreeC (env : Env K E) (z w : K × K) : Prop := Agree env z.1 w.1 ∧ Agree env z.2 w.2

omit [Field K] [LinearOrder K] [IsStrictOrderedRing K] in
theorem forall2_parts {R : K → K → Prop} : ∀ {a b : List (K × K)}, List.Forall₂ R (a.map Prod.fst) (b.map Prod.fst) →
    List.Forall₂ R (a.map Prod.snd) (b.map Prod.snd) → List.Forall₂ (fun z w => R z.1 w.1 ∧ R z.2 w.2) a b
  | [], [], _, _ => .nil
  | [], _ :: _, h, _ => by cases h
  | _ :: _, [], h, _ => by cases h
  | _ :: _, _ :: _, h1, h2 => by
    simp only [List.map_cons, List.forall₂_cons] at h1 h2
    exact .cons ⟨h1.1, h2.1⟩ (forall2_parts h1.2 h2.2)

omit [Field K] [LinearOrder K] [IsStrictOrderedRing K] in
theorem forall2_fst {R : K → K → Prop} {a b : List (K × K)} (h : List.Forall₂ (fun z w => R z.1 w.1 ∧ R z.2 w.2) a b) :
    List.Forall₂ R (a.map Prod.fst) (b.map Prod.fst) := by
  rw [List.forall₂_map_left_iff, List.forall₂_map_right_iff]
  exact h.imp fun _ _ h => h.1

omit [Field K] [LinearOrder K] [IsStrictOrderedRing K] in
theorem forall2_snd {R : K → K → Prop} {a b : List (K × K)} (h : List.Forall₂ (fun z w => R z.1 w.1 ∧ R z.2 w.2) a b) :
    List.Forall₂ R (a.map Prod.snd) (b.map Prod.snd) := by
  rw [List.forall₂_map_left_iff, List.forall₂_map_right_iff]
  exact h.imp fun _ _ h => h.2

/-- C175: a column of a result that passes is the abscissa, or it has a column of the same name in the reference, and with the
same abscissae all its values agree with those of the reference in real and imaginary part. -/
theorem C175_column_partial {env : Env K E} (hi : Interp env) (hea : 0 ≤ env.ea) {x : List K} {ref : Ref K}
    {rx : List (K × K)} (hx : ref.cols.lookup ref.xname = some rx) (hrx : rx.map Prod.fst = x) {k : String}
    {col : List (K × K)} (h : checkCol env x ref k col = .ok ()) :
    col = x.map (fun u => (u, 0)) ∨ ∃ rc, ref.cols.lookup k = some rc ∧ List.Forall₂ (AgreeC env) col rc := by
  unfold checkCol at h
  by_cases hc : col = x.map (fun u => (u, 0))
  · exact .inl hc
  rw [if_neg hc, hx] at h
  cases hk : ref.cols.lookup k with
  | none => simp [hk] at h
  | some rc =>
    refine .inr ⟨rc, rfl, ?_⟩
    simp only [hk, hrx] at h
    by_cases hz : (isComplex col || isComplex rc) = true
    · rw [if_pos hz] at h
      cases h1 : compare env x x (col.map Prod.fst) (rc.map Prod.fst) with
      | error e => simp [h1] at h
      | ok =>
        simp only [h1] at h
        exact forall2_parts (compare_same hi h1) (compare_same hi h)
    · rw [if_neg hz] at h
      have h1 := compare_same hi h
      simp only [Bool.or_eq_true, not_or, Bool.not_eq_true] at hz
      have zero : ∀ l : List (K × K), isComplex l = false → ∀ z ∈ l, z.2 = 0 := by
        intro l hl z hm
        by_contra hne
        have : isComplex l = true := List.any_eq_true.2 ⟨z, hm, by simpa using hne⟩
        simp [hl] at this
      have hlen := h1.length_eq
      refine forall2_parts h1 ?_
      have e1 : ∀ l : List (K × K), isComplex l = false → l.map Prod.snd = List.replicate l.length 0 := by
        intro l hl
        exact List.eq_replicate_iff.2 ⟨by simp, by
          intro b hb
          obtain ⟨z, hz, rfl⟩ := List.mem_map.1 hb
          exact zero l hl z hz⟩
      rw [e1 _ hz.1, e1 _ hz.2]
      simp only [List.length_map] at hlen
      rw [hlen]
      have : ∀ n, List.Forall₂ (Agree env) (List.replicate n 0) (List.replicate n 0) := by
        intro n
        induction n with
        | zero => exact .nil
        | succ n ih =>
          rw [List.replicate_succ]
          exact .cons (by simp [Agree, hea]) ih
      exact this _

omit [IsStrictOrderedRing K] in
/-- C175: and with splines through all columns every such column passes. -/
theorem C175_accepted {env : Env K E} (hi : Interp env) {x : List K} {ref : Ref K}
    {rx : List (K × K)} (hx : ref.cols.lookup ref.xname = some rx) (hrx : rx.map Prod.fst = x) {k : String}
    {col : List (K × K)} (hs : ∀ ys : List K, ys.length = x.length → (env.spline x ys).isSome) (hl : col.length = x.length)
    (h : col = x.map (fun u => (u, 0)) ∨ ∃ rc, ref.cols.lookup k = some rc ∧ List.Forall₂ (AgreeC env) col rc) :
    checkCol env x ref k col = .ok () := by
  unfold checkCol
  by_cases hc : col = x.map (fun u => (u, 0))
  · rw [if_pos hc]
  rw [if_neg hc, hx]
  rcases h with h | ⟨rc, hk, hall⟩
  · exact absurd h hc
  have hl2 : rc.length = x.length := by rw [← hall.length_eq, hl]
  have f1 := (compare_same_iff hi (x := x) (hs (col.map Prod.fst) (by simp [hl])) (hs (rc.map Prod.fst) (by simp [hl2]))).2
    (forall2_fst hall)
  have f2 := (compare_same_iff hi (x := x) (hs (col.map Prod.snd) (by simp [hl])) (hs (rc.map Prod.snd) (by simp [hl2]))).2
    (forall2_snd hall)
  simp only [hk, hrx, f1, f2]
  split_ifs <;> rfl

omit [IsStrictOrderedRing K] in
theorem checkCols_ok {env : Env K E} {x : List K} {ref : Ref K} {cols : Cols K} :
    checkCols env x ref cols = .ok () ↔ ∀ p ∈ cols, checkCol env x ref p.1 p.2 = .ok () := by
  induction cols with
  | nil => simp [checkCols]
  | cons p l ih =>
    obtain ⟨k, col⟩ := p
    unfold checkCols
    cases h : checkCol env x ref k col with
    | error e => simp [h]
    | ok u => simp [ih, h]

omit [IsStrictOrderedRing K] in
/-- C175: operating points: every variable of the result has a value in the reference that agrees. -/
theorem C175_op {env : Env K E} {v r : List (String × K)} :
    check env (.op v) (.op r) = .ok () ↔ ∀ p ∈ v, ∃ w, r.lookup p.1 = some w ∧ Agree env p.2 w := by
  simp only [check, check1]
  induction v with
  | nil => simp [checkOp]
  | cons p l ih =>
    obtain ⟨k, u⟩ := p
    simp only [checkOp, List.forall_mem_cons]
    cases h : r.lookup k with
    | none => simp
    | some w =>
      by_cases hc : close env.er env.ea u w = true
      · simp only [hc, if_true, ih]
        have : Agree env u w := by simpa [close, Agree] using hc
        simp [this]
      · have : ¬ Agree env u w := by simpa [close, Agree] using hc
        simp [hc, this]

omit [Field K] [LinearOrder K] [IsStrictOrderedRing K] in
/-- C175: a test passes its comparison exactly when every analysis that gave results has a reference and passes. -/
theorem C175_test {chk : Res K E → RefData K E → Except Bad Unit} {refs : List (String × RefData K E)}
    {res : List (String × Res K E)} :
    compareAll chk refs res = .ok () ↔ ∀ p ∈ res, ∃ d, refs.lookup p.1 = some d ∧ chk p.2 d = .ok () := by
  induction res with
  | nil => simp [compareAll]
  | cons p l ih =>
    obtain ⟨t, r⟩ := p
    simp only [compareAll, List.forall_mem_cons]
    cases h : refs.lookup t with
    | none => simp
    | some d =>
      cases hc : chk r d with
      | error e => simp [hc]
      | ok u => simp [ih, hc]

/-! ### Poles and zeros -/

/-- C175: poles that pass are those of the reference in some order, up to the tolerance. -/
theorem C175_singularities {C : Type} (near : C → C → Bool) (si : Option Nat) (res ref : List C)
    (h : checkSing near si res ref = .ok ()) : ∃ ref', ref'.Perm ref ∧ List.Forall₂ (fun a b => near a b = true) res ref' := by
  induction res generalizing si ref with
  | nil =>
    simp only [checkSing] at h
    cases ref with
    | nil => exact ⟨[], .refl _, .nil⟩
    | cons => simp at h
  | cons i res ih =>
    simp only [checkSing] at h
    cases hf : ref.findIdx? (near i) with
    | none =>
      simp only [hf] at h
      split_ifs at h
    | some k =>
      simp only [hf] at h
      obtain ⟨r', hp, ha⟩ := ih _ _ h
      obtain ⟨hk, hn, -⟩ := List.findIdx?_eq_some_iff_getElem.1 hf
      refine ⟨ref[k] :: r', ?_, .cons hn ha⟩
      exact (List.Perm.cons _ hp).trans (List.getElem_cons_eraseIdx_perm hk)

/-- C175: and if no pole of the result is near two different poles of the reference, those that can be paired pass. -/
theorem C175_singularities_partial {C : Type} (near : C → C → Bool) (si : Option Nat) (res ref : List C)
    (hu : ∀ a ∈ res, ∀ b ∈ ref, ∀ c ∈ ref, near a b = true → near a c = true → b = c)
    (h : ∃ ref', ref'.Perm ref ∧ List.Forall₂ (fun a b => near a b = true) res ref') :
    checkSing near si res ref = .ok () := by
  induction res generalizing si ref with
  | nil =>
    obtain ⟨r', hp, ha⟩ := h
    cases ha
    have : ref = [] := List.Perm.nil_eq hp ▸ rfl
    subst this
    rfl
  | cons i res ih =>
    obtain ⟨r', hp, ha⟩ := h
    cases ha with
    | @cons _ b _ r'' hb hr =>
      have hbm : b ∈ ref := hp.mem_iff.1 (by simp)
      simp only [checkSing]
      cases hf : ref.findIdx? (near i) with
      | none =>
        rw [List.findIdx?_eq_none_iff] at hf
        simp [hf b hbm] at hb
      | some k =>
        simp only
        obtain ⟨hk, hn, -⟩ := List.findIdx?_eq_some_iff_getElem.1 hf
        have hbk : b = ref[k] := hu i (by simp) b hbm _ (List.getElem_mem hk) hb hn
        refine ih _ _ (fun a ha b hb c hc => hu a (by simp [ha]) b (List.mem_of_mem_eraseIdx hb) c (List.mem_of_mem_eraseIdx hc))
          ⟨r'', ?_, hr⟩
        have := hp.trans (List.getElem_cons_eraseIdx_perm hk).symm
        rw [← hbk] at this
        exact List.Perm.cons_inv this

/-- the comparison of real poles with the tolerances of `_check_singularities` -/
def nearQ (i s : ℚ) : Bool := close (1 / 1000) (1 / 10000) i s

/-- C175, refuted: poles that can be paired with those of the reference within the tolerances are refused, because the first near
one is taken. -/
theorem C175_singularities_refuted : ∃ res ref : List ℚ, (∃ ref', ref'.Perm ref ∧
      List.Forall₂ (fun a b => nearQ a b = true) res ref') ∧ checkSing nearQ none res ref = .error .assertion :=
  ⟨[0, 15 / 100000], [8 / 100000, -5 / 100000], ⟨[-5 / 100000, 8 / 100000], by decide +kernel, by decide +kernel⟩, by decide +kernel⟩

/-- what `_check_singularities` raises when the references are used up: not an AssertionError -/
theorem C175_leftover {C : Type} (near : C → C → Bool) (i : C) (res : List C) :
    checkSing near none (i :: res) [] = .error .unbound ∧ ∀ k, checkSing near (some k) (i :: res) [] = .error .index := by
  simp [checkSing]

omit [IsStrictOrderedRing K] in
/-- C175 for poles and zeros: they pass exactly if there are as many as in the reference and the singularities pass. -/
theorem C175_pz {env : Env K E} {p z rp rz : List (K × K)} :
    check env (.pz p z) (.pz rp rz) = .ok () ↔ p.length = rp.length ∧ z.length = rz.length ∧
      checkSing env.near none p rp = .ok () ∧ checkSing env.near none z rz = .ok () := by
  simp only [check, check1, checkPz]
  by_cases h1 : p.length = rp.length
  · rw [if_neg (by simpa using h1)]
    cases h2 : checkSing env.near none p rp with
    | error e => simp
    | ok _ =>
      by_cases h3 : z.length = rz.length
      · simp [h1, h3]
      · simp [h3]
  · simp [h1]

omit [IsStrictOrderedRing K] in
/-- C175 for symbolic results -/
theorem C175_symbolic {env : Env K E} {d r : List (String × E)} :
    check env (.sym d) (.sym r) = .ok () ↔ ∀ q ∈ d, ∃ e, r.lookup q.1 = some e ∧ env.same q.2 e = true := by
  simp only [check, check1]
  induction d with
  | nil => simp [checkSym]
  | cons q l ih =>
    obtain ⟨k, e⟩ := q
    simp only [checkSym, List.forall_mem_cons]
    cases h : r.lookup k with
    | none => simp
    | some w =>
      by_cases hs : env.same e w = true
      · simp [hs, ih]
      · simp [hs]

omit [IsStrictOrderedRing K] in
/-- a result of one kind never passes against a reference of another kind: the names are not found -/
theorem C175_kinds (env : Env K E) (t : Table K) (v w : List (String × K)) (p z : List (K × K)) (d : List (String × E)) (r : Ref K) :
    check env (.table t) (.op w) = .error .key ∧ check env (.op v) (.csv r) = .error .key ∧
      check env (.pz p z) (.op w) = .error .key ∧ check env (.sym d) (.csv r) = .error .key := by
  simp [check, check1]

omit [IsStrictOrderedRing K] in
/-- a column the reference does not have is a KeyError, whatever its values are, unless it is the abscissa -/
theorem C175_missing (env : Env K E) (x : List K) (r : Ref K) (k : String) (col : List (K × K)) (h : r.cols.lookup k = none)
    (hx : col ≠ x.map fun u => (u, 0)) : checkCol env x r k col = .error .key := by
  unfold checkCol
  rw [if_neg hx, h]
  cases r.cols.lookup r.xname <;> rfl

/-! ### What a passed test does not say -/

omit [IsStrictOrderedRing K] in
/-- C175, refuted: an analysis that failed passes against every reference, in both classes. -/
theorem C175_failed_refuted (env : Env K E) (t : String) (d : RefData K E) :
    compareAll (check env) [(t, d)] [(t, .none)] = .ok () ∧ compareAll (checkApi env) [(t, d)] [(t, .none)] = .ok () := by
  constructor <;> simp [compareAll, check, checkApi, check1]

omit [IsStrictOrderedRing K] in
/-- C175, refuted: results may lack variables, and analyses may be missing. -/
theorem C175_missing_refuted {env : Env K E} {x : List K} {ref : Ref K} {cols cols' : Cols K} (h : cols'.Sublist cols)
    (hc : check env (.table ⟨x, cols⟩) (.csv ref) = .ok ()) (refs : List (String × RefData K E)) :
    check env (.table ⟨x, cols'⟩) (.csv ref) = .ok () ∧ compareAll (check env) refs [] = .ok () := by
  simp only [check, check1, checkCols_ok] at hc ⊢
  exact ⟨fun p hp => hc p (h.subset hp), rfl⟩

omit [IsStrictOrderedRing K] in
/-- C175, refuted: a variable with the values of the abscissa passes whatever the reference says. -/
theorem C175_abscissa_refuted (env : Env K E) (x : List K) (ref : Ref K) (k : String) :
    check env (.table ⟨x, [(k, x.map fun u => (u, 0))]⟩) (.csv ref) = .ok () := by
  simp [check, check1, checkCols, checkCol]

omit [IsStrictOrderedRing K] in
/-- C175, refuted: a simulation that stops early passes if it passed before it stopped. -/
theorem C175_early_refuted {env : Env K E} (hi : Interp env) {x refx a b : List K} {n : Nat}
    (hs : (env.spline (x.take n) (a.take n)).isSome) (h : compare env x refx a b = .ok ()) :
    compare env (x.take n) refx (a.take n) b = .ok () := by
  rw [compare_ok] at h ⊢
  obtain ⟨f, g, hf, hg, hall⟩ := h
  obtain ⟨f', hf'⟩ := Option.isSome_iff_exists.1 hs
  refine ⟨f', g, hf', hg, fun u hu => ?_⟩
  have h1 := hi _ _ _ hf
  have h2 := hi _ _ _ hf'
  rw [← h1, ← List.map_take] at h2
  have : f' u = f u := List.map_inj_left.1 h2 u hu
  rw [this]
  exact hall u (List.mem_of_mem_take hu)

omit [IsStrictOrderedRing K] in
/-- C175, refuted: of the results of an API test only the first is looked at; a netlist test stops at the shorter list. -/
theorem C175_tuple_refuted (env : Env K E) (a : Res K E) (l l' : List (Res K E)) (r : RefData K E) (rs : List (RefData K E)) :
    checkApi env (.tuple (a :: l)) r = checkApi env (.tuple (a :: l')) r ∧ check env (.tuple []) (.tuple rs) = .ok () := by
  constructor
  · simp [checkApi]
  · simp [check, checkZip]

/-! ### References -/

omit [Field K] [LinearOrder K] [IsStrictOrderedRing K] in
/-- C176: with all references present nothing but the comparison decides, and the references stay as they are. -/
theorem C176_kept {δ : Type} (out : String → String) (refs : List (String × String)) (write : Disk δ → Disk δ)
    (cmp : Disk δ → Except Bad Unit) (d : Disk δ) (hall : ∀ r ∈ refs, (d r.2).isSome) (hw : ∀ r ∈ refs, write d r.2 = d r.2) :
    (∀ d', test out refs write cmp d = .ok d' → cmp d = .ok () ∧ ∀ r ∈ refs, d' r.2 = d r.2) ∧
      (cmp d = .ok () → test out refs write cmp d = .ok (write d)) := by
  have hr : refRun d refs = false := by
    rw [refRun, List.any_eq_false]
    intro r hm
    have := hall r hm
    cases h : d r.2 with
    | none => simp [h] at this
    | some => simp
  simp only [test, hr, Bool.false_eq_true, if_false]
  constructor
  · intro d' h
    cases hc : cmp d with
    | error e => simp [hc] at h
    | ok =>
      simp only [hc] at h
      cases h
      exact ⟨rfl, hw⟩
  · intro h; simp [h]

/-- the names used by a test do not clash -/
structure Distinct (out : String → String) (refs : List (String × String)) : Prop where
  files : (refs.map Prod.snd).Nodup
  outs : (refs.map fun r => out r.1).Nodup
  apart : ∀ r ∈ refs, ∀ q ∈ refs, out r.1 ≠ q.2

omit [Field K] [LinearOrder K] [IsStrictOrderedRing K] in
theorem store_spec {δ : Type} (out : String → String) (refs : List (String × String)) (d : Disk δ) (hd : Distinct out refs)
    (hall : ∀ r ∈ refs, (d (out r.1)).isSome) :
    ∃ d', store out d refs = .ok d' ∧ (∀ r ∈ refs, d' r.2 = d (out r.1)) ∧
      ∀ p, (∀ r ∈ refs, p ≠ r.2 ∧ p ≠ out r.1) → d' p = d p := by
  induction refs generalizing d with
  | nil => exact ⟨d, rfl, by simp, fun _ _ => rfl⟩
  | cons r l ih =>
    obtain ⟨t, f⟩ := r
    obtain ⟨c, hc⟩ := Option.isSome_iff_exists.1 (hall (t, f) (by simp))
    have hf := hd.files
    have ho := hd.outs
    simp only [List.map_cons, List.nodup_cons, List.mem_map, not_exists, not_and] at hf ho
    set d1 : Disk δ := fun p => if p = f then some c else if p = out t then none else d p with hd1
    have hren : rename d (out t) f = .ok d1 := by simp [rename, hc, hd1]
    have hsame : ∀ r ∈ l, d1 (out r.1) = d (out r.1) := by
      intro r hr
      have n1 : out r.1 ≠ f := hd.apart r (by simp [hr]) (t, f) (by simp)
      have n2 : out r.1 ≠ out t := ho.1 r hr
      simp [hd1, n1, n2]
    obtain ⟨d', h1, h2, h3⟩ := ih d1 ⟨hf.2, ho.2, fun a ha b hb => hd.apart a (by simp [ha]) b (by simp [hb])⟩
      (fun r hr => by rw [hsame r hr]; exact hall r (by simp [hr]))
    refine ⟨d', by simp only [store, hren]; exact h1, ?_, ?_⟩
    · intro r hr
      rcases List.mem_cons.1 hr with rfl | hr'
      · rw [h3 f fun r hr => ⟨fun he => hf.1 r hr he.symm, fun he => hd.apart r (by simp [hr]) (t, f) (by simp) he.symm⟩]
        simp [hd1, hc]
      · rw [h2 r hr', hsame r hr']
    · intro p hp
      rw [h3 p fun r hr => hp r (by simp [hr])]
      have := hp (t, f) (by simp)
      simp [hd1, this.1, this.2]

omit [Field K] [LinearOrder K] [IsStrictOrderedRing K] in
/-- C176: a reference run makes every result the reference for its analysis, and the next run is no reference run. -/
theorem C176_stored {δ : Type} (out : String → String) (refs : List (String × String)) (write : Disk δ → Disk δ)
    (cmp : Disk δ → Except Bad Unit) (d : Disk δ) (hd : Distinct out refs) (hr : ∃ r ∈ refs, d r.2 = none)
    (hall : ∀ r ∈ refs, (write d (out r.1)).isSome) :
    ∃ d', test out refs write cmp d = .ok d' ∧ (∀ r ∈ refs, d' r.2 = write d (out r.1)) ∧ refRun d' refs = false := by
  obtain ⟨d', h1, h2, -⟩ := store_spec out refs (write d) hd hall
  have hrr : refRun d refs = true := by
    obtain ⟨r, hm, hn⟩ := hr
    exact List.any_eq_true.2 ⟨r, hm, by simp [hn]⟩
  refine ⟨d', by simp only [test, hrr, if_true]; exact h1, h2, ?_⟩
  rw [refRun, List.any_eq_false]
  intro r hm
  obtain ⟨c, hc⟩ := Option.isSome_iff_exists.1 (hall r hm)
  simp [h2 r hm, hc]

/-- a test with two analyses -/
def twoRefs : List (String × String) := [("op", "t-ref.op"), ("dc", "t-ref.dc")]

def twoOut (t : String) : String := "t." ++ t

theorem two_distinct : Distinct twoOut twoRefs where
  files := by decide +kernel
  outs := by decide +kernel
  apart := by decide +kernel

/-- C176, refuted: with one reference missing the other ones are replaced without being compared. -/
theorem C176_overwritten_refuted (old new : Nat) (cmp : Disk Nat → Except Bad Unit) :
    ∃ d : Disk Nat, d "t-ref.dc" = some old ∧ ∃ d', test twoOut twoRefs
      (fun d p => if p = "t.op" ∨ p = "t.dc" then some new else d p) cmp d = .ok d' ∧ d' "t-ref.dc" = some new := by
  refine ⟨fun p => if p = "t-ref.dc" then some old else none, by simp, ?_⟩
  obtain ⟨d', h1, h2, -⟩ := C176_stored twoOut twoRefs (fun d p => if p = "t.op" ∨ p = "t.dc" then some new else d p) cmp
    (fun p => if p = "t-ref.dc" then some old else none) two_distinct ⟨("op", "t-ref.op"), by simp [twoRefs],
      if_neg (by decide +kernel)⟩ (by
      intro r hr
      simp only [twoRefs, List.mem_cons, List.not_mem_nil, or_false] at hr
      rcases hr with rfl | rfl
      · rw [if_pos (Or.inl (by decide +kernel))]; rfl
      · rw [if_pos (Or.inr (by decide +kernel))]; rfl)
  refine ⟨d', h1, ?_⟩
  rw [h2 ("dc", "t-ref.dc") (by simp [twoRefs])]
  rw [if_pos (Or.inr (by decide +kernel))]

/-- C176: results compared with themselves pass. -/
theorem C176_itself {env : Env K E} (hi : Interp env) (he : 0 ≤ env.er) (ha : 0 ≤ env.ea) {x : List K} {xname : String}
    {cols : Cols K} (hn : (cols.map Prod.fst).Nodup) (hx : cols.lookup xname = some (x.map fun u => (u, 0)))
    (hs : ∀ ys : List K, ys.length = x.length → (env.spline x ys).isSome) (hl : ∀ p ∈ cols, p.2.length = x.length) :
    check env (.table ⟨x, cols⟩) (.csv ⟨xname, cols⟩) = .ok () := by
  simp only [check, check1, checkCols_ok]
  intro p hp
  have hlk : ∀ {l : Cols K}, (l.map Prod.fst).Nodup → p ∈ l → l.lookup p.1 = some p.2 := by
    intro l hn hp
    induction l with
    | nil => cases hp
    | cons q l ih =>
      obtain ⟨k, v⟩ := q
      simp only [List.map_cons, List.nodup_cons] at hn
      rw [List.lookup_cons]
      rcases List.mem_cons.1 hp with rfl | hp'
      · simp
      · have : (p.1 == k) = false := by
          rw [beq_eq_false_iff_ne]
          rintro rfl
          exact hn.1 (List.mem_map_of_mem hp')
        rw [this]
        exact ih hn.2 hp'
  refine C175_accepted hi (rx := x.map fun u => (u, 0)) hx (by simp [Function.comp_def]) hs (hl p hp)
    (.inr ⟨p.2, hlk hn hp, ?_⟩)
  rw [List.forall₂_same]
  intro z _
  constructor <;> simp only [Agree, sub_self, abs_zero] <;> positivity

/-! ### Options -/

section Options
variable {V : Type}

/-- the options with some of them replaced -/
def override (o : Opts V) (l : List (String × V)) : Opts V := fun n => match l.lookup n with
  | some v => some v
  | none => o n

theorem setOpts_known (o back : Opts V) (l : List (String × V)) (hn : (l.map Prod.fst).Nodup)
    (hk : ∀ p ∈ l, (o p.1).isSome) :
    setOpts o back l = (override o l, (fun n => if n ∈ l.map Prod.fst then o n else back n), none) := by
  induction l generalizing o back with
  | nil => simp only [setOpts, List.map_nil, List.not_mem_nil, if_false]; rfl
  | cons p l ih =>
    obtain ⟨k, v⟩ := p
    obtain ⟨old, ho⟩ := Option.isSome_iff_exists.1 (hk (k, v) (by simp))
    simp only [List.map_cons, List.nodup_cons] at hn
    have hne : ∀ p ∈ l, p.1 ≠ k := fun p hp he => hn.1 (he ▸ List.mem_map_of_mem hp)
    simp only [setOpts, ho]
    rw [ih _ _ hn.2 (fun p hp => by simp [hne p hp, hk p (by simp [hp])])]
    have hlk : l.lookup k = none := by
      rw [List.lookup_eq_none_iff]
      intro p hp
      have := hne p hp
      simpa using this.symm
    refine Prod.ext ?_ (Prod.ext ?_ rfl)
    · funext n
      simp only [override, List.lookup_cons]
      by_cases hnk : n = k
      · subst hnk; simp [hlk]
      · have : (n == k) = false := beq_eq_false_iff_ne.2 hnk
        simp [this, hnk]
    · funext n
      simp only [List.map_cons, List.mem_cons]
      by_cases hnk : n = k
      · subst hnk
        simp [hn.1, ho]
      · simp only [hnk, if_false, false_or]

theorem reset_override (o : Opts V) (l : List (String × V)) (hk : ∀ p ∈ l, (o p.1).isSome) :
    resetOpts (override o l) (fun n => if n ∈ l.map Prod.fst then o n else none) = o := by
  funext n
  simp only [resetOpts]
  by_cases hn : n ∈ l.map Prod.fst
  · obtain ⟨p, hp, rfl⟩ := List.mem_map.1 hn
    obtain ⟨old, ho⟩ := Option.isSome_iff_exists.1 (hk p hp)
    simp [hn, ho]
  · have hlk : l.lookup n = none := by
      rw [List.lookup_eq_none_iff]
      intro p hp
      have : n ≠ p.1 := fun he => hn (he ▸ List.mem_map_of_mem hp)
      simpa using this
    simp only [if_neg hn, override, hlk]

theorem tearDown_ok {δ : Type} (o back : Opts V) (d : Disk δ) (rr : Bool) (files : List String)
    (hf : rr = true ∨ (files.Nodup ∧ ∀ f ∈ files, (d f).isSome)) : tearDown o back d rr files = (resetOpts o back, none) := by
  induction files generalizing d with
  | nil => unfold tearDown; split_ifs <;> rfl
  | cons f l ih =>
    unfold tearDown
    rcases hf with rfl | ⟨hn, hf⟩
    · rfl
    · cases rr with
      | true => rfl
      | false =>
        obtain ⟨c, hc⟩ := Option.isSome_iff_exists.1 (hf f (by simp))
        simp only [Bool.false_eq_true, if_false, hc]
        rw [List.nodup_cons] at hn
        refine ih _ (.inr ⟨hn.2, fun g hg => ?_⟩)
        have : g ≠ f := fun he => hn.1 (he ▸ hg)
        simp [this, hf g (by simp [hg])]

/-- C177: a netlist test whose files exist in the end runs with its options and leaves those it found. -/
theorem C177_netlist_partial {δ : Type} (o : Opts V) (opts : List (String × V)) (sim : Opts V → Disk δ) (d : Disk δ) (rr : Bool)
    (files : List String) (hn : (opts.map Prod.fst).Nodup) (hk : ∀ p ∈ opts, (o p.1).isSome)
    (hf : rr = true ∨ (files.Nodup ∧ ∀ f ∈ files, (sim (override o opts) f).isSome)) :
    netlistTest o opts sim d rr files = (some (override o opts), o, none) := by
  unfold netlistTest
  rw [setOpts_known o _ opts hn hk]
  simp only
  rw [tearDown_ok _ _ _ _ _ hf, reset_override o opts hk]

/-- C177, refuted: if the simulation did not write one of the files, the options of the test stay in force for all tests that
follow. -/
theorem C177_file_refuted {δ : Type} (o : Opts V) (opts : List (String × V)) (sim : Opts V → Disk δ) (d : Disk δ)
    (f : String) (files : List String) (hn : (opts.map Prod.fst).Nodup) (hk : ∀ p ∈ opts, (o p.1).isSome)
    (hm : sim (override o opts) f = none) :
    netlistTest o opts sim d false (f :: files) = (some (override o opts), override o opts, some .os) := by
  unfold netlistTest
  rw [setOpts_known o _ opts hn hk]
  simp [tearDown, hm]

/-- an API test on its own -/
theorem C177_api_partial (s : Sess V) (opts : List (String × V)) (hn : (opts.map Prod.fst).Nodup)
    (hk : ∀ p ∈ opts, (s.opts p.1).isSome) :
    (([.make opts, .run s.objs.length, .done s.objs.length] : List (Ev V)).foldl Sess.step s).opts = s.opts ∧
    (([.make opts, .run s.objs.length, .done s.objs.length] : List (Ev V)).foldl Sess.step s).seen =
      s.seen ++ [(s.objs.length, override s.opts opts)] := by
  simp only [List.foldl_cons, List.foldl_nil, Sess.step]
  rw [setOpts_known s.opts _ opts hn hk]
  simp only [List.getElem?_append_right (Nat.le_refl _), Nat.sub_self, List.getElem?_cons_zero]
  exact ⟨reset_override s.opts opts hk, trivial⟩

/-- C177, refuted: two API tests made before they are run (as test loaders do): the first runs with the option of the second, the
second with the default, and the option of the first is left behind. -/
theorem C177_api_refuted (k : String) (v0 v1 v2 : V) :
    let o : Opts V := fun n => if n = k then some v0 else none
    let s := ([.make [(k, v1)], .make [(k, v2)], .run 0, .done 0, .run 1, .done 1] : List (Ev V)).foldl Sess.step ⟨o, [], []⟩
    (s.seen.map fun p => p.2 k) = [some v2, some v0] ∧ s.opts k = some v1 := by
  simp [Sess.step, setOpts, resetOpts]

/-- C177, refuted: an unknown option makes the constructor raise after it has changed the options before it. -/
theorem C177_unknown_refuted (k u : String) (hu : u ≠ k) (v0 v1 w : V) :
    let o : Opts V := fun n => if n = k then some v0 else none
    (Sess.step ⟨o, [], []⟩ (.make [(k, v1), (u, w)])).opts k = some v1 ∧
      (Sess.step ⟨o, [], []⟩ (.make [(k, v1), (u, w)])).objs = [] := by
  simp [Sess.step, setOpts, hu]

/-- C177, refuted: a skipped test raises AttributeError at its end. -/
theorem C177_skip_refuted : skipped none = (some .skip, some .attr) := rfl

/-- C177, refuted: files below `/tmp/` are removed like all others, although the code means to leave them. -/
theorem C177_tmp_refuted (l : List (String × Option (List Char))) (t : String) (f : List Char) (hm : (t, some f) ∈ l)
    (hs : f ≠ "stdout".toList) : f ∈ rmfiles l := by
  induction l with
  | nil => cases hm
  | cons p l ih =>
    have ht : ∀ g : List Char, ¬ (5 < g.length ∧ g.take 4 = "/tmp/".toList) := by
      rintro g ⟨-, h⟩
      have := congrArg List.length h
      have h5 : ("/tmp/".toList).length = 5 := by decide +kernel
      rw [h5, List.length_take] at this
      omega
    rcases List.mem_cons.1 hm with rfl | hm'
    · simp only [rmfiles, if_pos (And.intro hs (ht f))]
      simp
    · obtain ⟨t', g⟩ := p
      have h' := ih hm'
      cases g with
      | none => simpa [rmfiles] using h'
      | some g =>
        simp only [rmfiles]
        split
        · simp [h']
        · exact h'

end Options

/-! ### Examples -/

/-- straight lines through the points, at least four of them -/
def lineEnv : Env ℚ Nat where
  er := 1 / 1000
  ea := 1 / 1000000
  spline xs ys := if xs.length = ys.length ∧ 4 ≤ xs.length ∧ xs.Nodup then
    some fun u => ((xs.zip ys).lookup u).getD 0 else none
  near := fun a b => nearQ a.1 b.1 && nearQ a.2 b.2
  same := (· == ·)

theorem line_interp : Interp lineEnv := by
  intro xs ys f h
  simp only [lineEnv] at h
  split_ifs at h with hc
  cases h
  obtain ⟨hl, -, hn⟩ := hc
  induction xs generalizing ys with
  | nil => cases ys with
    | nil => rfl
    | cons => simp at hl
  | cons a xs ih =>
    cases ys with
    | nil => simp at hl
    | cons b ys =>
      simp only [List.nodup_cons] at hn
      simp only [List.zip_cons_cons, List.map_cons, List.lookup_cons, beq_self_eq_true, Option.getD_some]
      congr 1
      rw [← ih ys (by simpa using hl) hn.2]
      apply List.map_congr_left
      intro u hu
      have : (u == a) = false := beq_eq_false_iff_ne.2 fun he => hn.1 (he ▸ hu)
      rw [this, ih ys (by simpa using hl) hn.2]

def goodTable : Table ℚ := ⟨[0, 1, 2, 3], [("T", [(0, 0), (1, 0), (2, 0), (3, 0)]), ("Vn1", [(5, 0), (4, 0), (3, 0), (3, 0)])]⟩
def goodRef : Ref ℚ := ⟨"T", [("T", [(0, 0), (1, 0), (2, 0), (3, 0)]), ("Vn1", [(5001 / 1000, 0), (4, 0), (3, 0), (3, 0)])]⟩
def badRef : Ref ℚ := ⟨"T", [("T", [(0, 0), (1, 0), (2, 0), (3, 0)]), ("Vn1", [(6, 0), (4, 0), (3, 0), (3, 0)])]⟩

example : check lineEnv (.table goodTable) (.csv goodRef) = .ok () ∧
    check lineEnv (.table goodTable) (.csv badRef) = .error .assertion := by
  constructor <;> simp only [check, check1] <;> decide +kernel

example : checkSing nearQ none [1, 2, 3] [3, 1, 2] = .ok () ∧ checkSing nearQ none [1, 2, 2] [2, 1, 3] = .error .assertion := by
  constructor <;> decide +kernel

example : Distinct twoOut twoRefs := two_distinct

end Verif.Testing
