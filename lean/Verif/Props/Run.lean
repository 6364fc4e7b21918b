import Verif.Model.Run
import Mathlib.Data.List.Induction

/-!
C53: analyses are executed once each, in order. C95: the operating points used by the analyses of
a netlist. C96: `get_op_x0`.
-/

namespace Verif.Run

variable {W P X R E : Type}

/-! ### Statement vocabulary -/

/-- The entries of a log follow from each other: each analysis is executed in the world left by
the one before. -/
def Executed (env : Env W P X R E) : W → List (Entry W P X R) → Prop
  | _, [] => True
  | w, e :: rest => env.exec w e.item = (e.world, .ok e.result) ∧ Executed env e.world rest

/-- Type and other entries than `x0` of an analysis. -/
def what (a : Item P X) : String × P := (a.type, a.payload)

/-- `j` is the place of the first operating point before place `i`. -/
def FirstOp (items : List (Item P X)) (j i : Nat) : Prop :=
  j < i ∧ (∃ b, items[j]? = some b ∧ b.type = "op") ∧
    ∀ k b, k < j → items[k]? = some b → b.type ≠ "op"

/-- `j` is the place of the last operating point before place `i`. -/
def LastOp (items : List (Item P X)) (j i : Nat) : Prop :=
  j < i ∧ (∃ b, items[j]? = some b ∧ b.type = "op") ∧
    ∀ k b, j < k → k < i → items[k]? = some b → b.type ≠ "op"

def NoOp (items : List (Item P X)) (i : Nat) : Prop :=
  ∀ k b, k < i → items[k]? = some b → b.type ≠ "op"

/-- Which `x0` each analysis is executed with. -/
structure X0Rule (env : Env W P X R E) (items : List (Item P X)) (log : List (Entry W P X R)) :
    Prop where
  absent : ∀ (i : Nat) (a : Item P X) (e : Entry W P X R), items[i]? = some a → log[i]? = some e → a.x0 = .absent → e.item.x0 = .absent
  none : ∀ (i : Nat) (a : Item P X) (e : Entry W P X R), items[i]? = some a → log[i]? = some e → a.x0 = .none → e.item.x0 = .none
  value : ∀ (i : Nat) (a : Item P X) (e : Entry W P X R) (x : X), items[i]? = some a → log[i]? = some e → a.x0 = .value x →
    e.item.x0 = .value x
  noOp : ∀ (i : Nat) (a : Item P X) (e : Entry W P X R) (s : String), items[i]? = some a → log[i]? = some e → a.x0 = .label s → NoOp items i →
    e.item.x0 = .none
  op : ∀ (i : Nat) (a : Item P X) (e : Entry W P X R) (j : Nat) (f : Entry W P X R), items[i]? = some a → log[i]? = some e → a.x0 = .label "op" →
    FirstOp items j i → log[j]? = some f → e.item.x0 = .value (env.toX f.result)
  opIc : ∀ (i : Nat) (a : Item P X) (e : Entry W P X R) (j : Nat) (f : Entry W P X R), items[i]? = some a → log[i]? = some e → a.x0 = .label "op+ic" →
    FirstOp items j i → log[j]? = some f →
    ∃ x, env.icX f.world f.result = .ok x ∧ e.item.x0 = .value x

/-! ### Lemmas -/

@[simp] theorem dropLabel_type (a : Item P X) : (dropLabel a).type = a.type := by
  unfold dropLabel; split <;> rfl

@[simp] theorem dropLabel_payload (a : Item P X) : (dropLabel a).payload = a.payload := by
  unfold dropLabel; split <;> rfl

theorem firstOp_cons {a : Item P X} {rest : List (Item P X)} {j i : Nat} (ha : a.type ≠ "op")
    (h : FirstOp (a :: rest) j (i + 1)) : ∃ j', j = j' + 1 ∧ FirstOp rest j' i := by
  obtain ⟨hj, ⟨b, hb, hop⟩, hk⟩ := h
  cases j with
  | zero => simp at hb; subst hb; exact absurd hop ha
  | succ j =>
    refine ⟨j, rfl, by omega, ⟨b, by simpa using hb, hop⟩, fun k b' hk' hb' => ?_⟩
    exact hk (k + 1) b' (by omega) (by simpa using hb')

theorem resolve_type (d : X0s X) (a : Item P X) : (resolve d a).type = a.type := rfl

theorem resolve_what (d : X0s X) (a : Item P X) : what (resolve d a) = what a := rfl

/-- A round that does not raise. -/
theorem step_ok (env : Env W P X R E) (s s' : St W P X R) (a : Item P X) (rest : List (Item P X))
    (h : step env s a rest = (s', none)) :
    ∃ w r, env.exec s.world (dropLabel a) = (w, .ok r) ∧ s'.world = w ∧
      s'.log = s.log ++ [⟨dropLabel a, r, w⟩] ∧
      ((a.type ≠ "op" ∧ s'.left = rest ∧ s'.x0s = s.x0s) ∨
       (a.type = "op" ∧ ∃ x, env.icX w r = .ok x ∧
          s'.x0s = (s.x0s.set "op" (env.toX r)).set "op+ic" x ∧
          s'.left = rest.map (resolve s'.x0s))) := by
  unfold step at h
  simp only at h
  cases hx : env.exec s.world (dropLabel a) with
  | mk w o =>
    rw [hx] at h
    cases o with
    | error e => simp at h
    | ok r =>
      simp only at h
      by_cases hop : a.type = "op"
      · rw [if_pos hop] at h
        cases hic : env.icX w r with
        | error e => rw [hic] at h; simp at h
        | ok x =>
          rw [hic] at h
          simp only at h
          cases hh : handle ((s.x0s.set "op" (env.toX r)).set "op+ic" x) rest with
          | none => rw [hh] at h; simp at h
          | some rest' =>
            rw [hh] at h
            simp only [Prod.mk.injEq, and_true] at h
            subst h
            refine ⟨w, r, rfl, rfl, rfl, Or.inr ⟨hop, x, hic, rfl, ?_⟩⟩
            cases rest with
            | nil => simpa [handle] using hh.symm
            | cons b t =>
              simp only [handle] at hh
              split at hh
              · simp at hh
              · exact (Option.some.inj hh).symm
      · rw [if_neg hop] at h
        simp only [Prod.mk.injEq, and_true] at h
        subst h
        exact ⟨w, r, rfl, rfl, rfl, Or.inl ⟨hop, rfl, rfl⟩⟩

theorem x0rule_nil (env : Env W P X R E) : X0Rule env ([] : List (Item P X)) [] := by
  constructor <;> intros <;> simp_all

theorem dropLabel_x0 (a : Item P X) :
    (dropLabel a).x0 = match a.x0 with | .label _ => .none | x => x := by
  unfold dropLabel; split <;> simp_all

/-- The rule for a list whose first analysis is not an operating point. -/
theorem x0rule_cons (env : Env W P X R E) (a : Item P X) (rest : List (Item P X))
    (L : List (Entry W P X R)) (r : R) (w : W) (ha : a.type ≠ "op") (h : X0Rule env rest L) :
    X0Rule env (a :: rest) (⟨dropLabel a, r, w⟩ :: L) := by
  constructor
  · intro i b e hb he hx
    cases i with
    | zero =>
      simp only [List.getElem?_cons_zero, Option.some.injEq] at hb he
      subst hb he; simp [dropLabel_x0, hx]
    | succ i => exact h.absent i b e (by simpa using hb) (by simpa using he) hx
  · intro i b e hb he hx
    cases i with
    | zero =>
      simp only [List.getElem?_cons_zero, Option.some.injEq] at hb he
      subst hb he; simp [dropLabel_x0, hx]
    | succ i => exact h.none i b e (by simpa using hb) (by simpa using he) hx
  · intro i b e x hb he hx
    cases i with
    | zero =>
      simp only [List.getElem?_cons_zero, Option.some.injEq] at hb he
      subst hb he; simp [dropLabel_x0, hx]
    | succ i => exact h.value i b e x (by simpa using hb) (by simpa using he) hx
  · intro i b e s hb he hx hno
    cases i with
    | zero =>
      simp only [List.getElem?_cons_zero, Option.some.injEq] at hb he
      subst hb he; simp [dropLabel_x0, hx]
    | succ i =>
      refine h.noOp i b e s (by simpa using hb) (by simpa using he) hx fun k c hk hc => ?_
      exact hno (k + 1) c (by omega) (by simpa using hc)
  · intro i b e j f hb he hx hf hl
    cases i with
    | zero => exact absurd hf.1 (by omega)
    | succ i =>
      obtain ⟨j', rfl, hf'⟩ := firstOp_cons ha hf
      exact h.op i b e j' f (by simpa using hb) (by simpa using he) hx hf' (by simpa using hl)
  · intro i b e j f hb he hx hf hl
    cases i with
    | zero => exact absurd hf.1 (by omega)
    | succ i =>
      obtain ⟨j', rfl, hf'⟩ := firstOp_cons ha hf
      exact h.opIc i b e j' f (by simpa using hb) (by simpa using he) hx hf' (by simpa using hl)

theorem firstOp_zero {a : Item P X} {rest : List (Item P X)} {j i : Nat} (ha : a.type = "op")
    (h : FirstOp (a :: rest) j i) : j = 0 := by
  cases j with
  | zero => rfl
  | succ j => exact absurd ha (h.2.2 0 a (by omega) (by simp))

/-- The rule for a list whose first analysis is an operating point. -/
theorem x0rule_op (env : Env W P X R E) (d : X0s X) (a : Item P X) (rest : List (Item P X))
    (L : List (Entry W P X R)) (r : R) (w : W) (x : X) (ha : a.type = "op")
    (hic : env.icX w r = .ok x)
    (hd : d "op" = some (env.toX r)) (hd' : d "op+ic" = some x)
    (h : X0Rule env (rest.map (resolve d)) L) :
    X0Rule env (a :: rest) (⟨dropLabel a, r, w⟩ :: L) := by
  have hget : ∀ (i : Nat) (b : Item P X), (a :: rest)[i + 1]? = some b →
      (rest.map (resolve d))[i]? = some (resolve d b) := by
    intro i b hb
    have : rest[i]? = some b := by simpa using hb
    simp [this]
  constructor
  · intro i b e hb he hx
    cases i with
    | zero =>
      simp only [List.getElem?_cons_zero, Option.some.injEq] at hb he
      subst hb he; simp [dropLabel_x0, hx]
    | succ i => exact h.absent i _ e (hget i b hb) (by simpa using he) (by simp [resolve, hx, resolveX0])
  · intro i b e hb he hx
    cases i with
    | zero =>
      simp only [List.getElem?_cons_zero, Option.some.injEq] at hb he
      subst hb he; simp [dropLabel_x0, hx]
    | succ i => exact h.none i _ e (hget i b hb) (by simpa using he) (by simp [resolve, hx, resolveX0])
  · intro i b e v hb he hx
    cases i with
    | zero =>
      simp only [List.getElem?_cons_zero, Option.some.injEq] at hb he
      subst hb he; simp [dropLabel_x0, hx]
    | succ i =>
      exact h.value i _ e v (hget i b hb) (by simpa using he) (by simp [resolve, hx, resolveX0])
  · intro i b e s hb he hx hno
    cases i with
    | zero =>
      simp only [List.getElem?_cons_zero, Option.some.injEq] at hb he
      subst hb he; simp [dropLabel_x0, hx]
    | succ i => exact absurd ha (hno 0 a (by omega) (by simp))
  · intro i b e j f hb he hx hf hl
    have hj := firstOp_zero ha hf
    subst hj
    simp only [List.getElem?_cons_zero, Option.some.injEq] at hl
    subst hl
    cases i with
    | zero => exact absurd hf.1 (by omega)
    | succ i =>
      exact h.value i _ e _ (hget i b hb) (by simpa using he) (by simp [resolve, hx, resolveX0, hd])
  · intro i b e j f hb he hx hf hl
    have hj := firstOp_zero ha hf
    subst hj
    simp only [List.getElem?_cons_zero, Option.some.injEq] at hl
    subst hl
    cases i with
    | zero => exact absurd hf.1 (by omega)
    | succ i =>
      exact ⟨x, hic, h.value i _ e _ (hget i b hb) (by simpa using he)
        (by simp [resolve, hx, resolveX0, hd'])⟩

/-- The whole loop. -/
theorem loop_ok (env : Env W P X R E) (n : Nat) : ∀ (s s' : St W P X R), s.left.length ≤ n →
    loop env n s = (s', none) →
    ∃ L, s'.log = s.log ++ L ∧ s'.left = [] ∧ Executed env s.world L ∧
      L.map (fun e => what e.item) = s.left.map what ∧ X0Rule env s.left L := by
  induction n with
  | zero =>
    intro s s' hn h
    have hl : s.left = [] := List.length_eq_zero_iff.1 (by omega)
    simp only [loop, Prod.mk.injEq, and_true] at h
    subst h
    exact ⟨[], by simp, hl, trivial, by simp [hl], by rw [hl]; exact x0rule_nil env⟩
  | succ n ih =>
    intro s s' hn h
    cases hl : s.left with
    | nil =>
      simp only [loop, hl, Prod.mk.injEq, and_true] at h
      subst h
      exact ⟨[], by simp, hl, trivial, by simp, x0rule_nil env⟩
    | cons a rest =>
      simp only [loop, hl] at h
      cases hs : step env s a rest with
      | mk s1 o =>
        rw [hs] at h
        cases o with
        | some e => simp at h
        | none =>
          simp only at h
          obtain ⟨w, r, hx, hw, hlog, hcase⟩ := step_ok env s s1 a rest hs
          have hlen : s1.left.length ≤ n := by
            have : rest.length ≤ n := by
              have := hn; rw [hl] at this; simp at this; omega
            rcases hcase with ⟨_, h1, _⟩ | ⟨_, x, _, _, h1⟩ <;> rw [h1] <;> simpa using this
          obtain ⟨L, h1, h2, h3, h4, h5⟩ := ih s1 s' hlen h
          refine ⟨⟨dropLabel a, r, w⟩ :: L, by rw [h1, hlog]; simp, h2, ⟨hx, by rw [hw] at h3; exact h3⟩,
            ?_, ?_⟩
          · have hrest : s1.left.map what = rest.map what := by
              rcases hcase with ⟨_, h1, _⟩ | ⟨_, x, _, _, h1⟩
              · rw [h1]
              · rw [h1, List.map_map]; rfl
            simp only [List.map_cons, h4, hrest]
            simp [what]
          · rcases hcase with ⟨hop, h6, _⟩ | ⟨hop, x, hic, hd, h6⟩
            · rw [h6] at h5
              exact x0rule_cons env a rest L r w hop h5
            · rw [h6] at h5
              exact x0rule_op env s1.x0s a rest L r w x hop hic (by rw [hd]; simp [X0s.set])
                (by rw [hd]; simp [X0s.set]) h5

/-- The analyses that `run` is asked for, whichever way. -/
theorem run_spec (env : Env W P X R E) (s : Sys W P X) (l : List (Item P X))
    (res : String → Option R) (h : (run env s l).out = .ok res) :
    let items := if l.isEmpty then s.queue else l
    let L := (run env s l).log
    res = resultsOf L ∧ Executed env s.world L ∧
      L.map (fun e => what e.item) = items.map what ∧ X0Rule env items L ∧
      (run env s l).sys.queue = if l.isEmpty then [] else s.queue := by
  unfold run at h ⊢
  simp only at h ⊢
  generalize hi : (if l.isEmpty = true then s.queue else l) = items at h ⊢
  cases hr : loop env items.length ⟨s.world, s.x0s, items, []⟩ with
  | mk s' o =>
    rw [hr] at h
    simp only at h ⊢
    cases o with
    | some e => simp at h
    | none =>
      simp only [Except.ok.injEq] at h
      obtain ⟨L, h1, h2, h3, h4, h5⟩ := loop_ok env items.length _ s' (by simp) hr
      simp only [List.nil_append] at h1
      rw [h1]
      refine ⟨by rw [← h, h1], h3, h4, h5, by rw [h2]⟩

theorem resultsOf_append (L : List (Entry W P X R)) (e : Entry W P X R) (t : String) :
    resultsOf (L ++ [e]) t = if t = e.item.type then some e.result else resultsOf L t := by
  simp [resultsOf]

/-! ### Theorems -/

/-- Each analysis of a non-empty list is executed once, in the order given, in the world left by
the one before; nothing else is executed. -/
theorem C53_order (env : Env W P X R E) (s : Sys W P X) (l : List (Item P X)) (hl : l ≠ [])
    (res : String → Option R) (h : (run env s l).out = .ok res) :
    (run env s l).log.map (fun e => (e.item.type, e.item.payload)) =
      l.map (fun a => (a.type, a.payload)) ∧
    Executed env s.world (run env s l).log := by
  have h' := run_spec env s l res h
  simp only at h'
  rw [if_neg (by simpa using hl)] at h'
  exact ⟨h'.2.2.1, h'.2.1⟩

/-- The same for the analyses queued, when no list is given. -/
theorem C53_order_queue (env : Env W P X R E) (s : Sys W P X)
    (res : String → Option R) (h : (run env s []).out = .ok res) :
    (run env s []).log.map (fun e => (e.item.type, e.item.payload)) =
      s.queue.map (fun a => (a.type, a.payload)) ∧
    Executed env s.world (run env s []).log := by
  have h' := run_spec env s [] res h
  simp only [List.isEmpty_nil, if_true] at h'
  exact ⟨h'.2.2.1, h'.2.1⟩

/-- The result of a type is that of the last analysis of the type, and there are no others. -/
theorem C53_results (env : Env W P X R E) (s : Sys W P X) (l : List (Item P X))
    (res : String → Option R) (h : (run env s l).out = .ok res) (t : String) :
    res t = (((run env s l).log.filter (fun e => e.item.type = t)).getLast?).map
      (fun e => e.result) := by
  have h' := (run_spec env s l res h).1
  rw [h']
  induction (run env s l).log using List.reverseRecOn with
  | nil => rfl
  | append_singleton L e ih =>
    rw [resultsOf_append, List.filter_append]
    by_cases ht : t = e.item.type
    · rw [if_pos ht]; simp [ht]
    · have : e.item.type ≠ t := fun h => ht h.symm
      rw [if_neg ht, ih]; simp [this]

/-- The queue is empty after it was used, and untouched if a list was given; the list itself is
not part of the state. -/
theorem C53_queue (env : Env W P X R E) (s : Sys W P X) (l : List (Item P X))
    (res : String → Option R) (h : (run env s l).out = .ok res) :
    (l = [] → (run env s l).sys.queue = []) ∧ (l ≠ [] → (run env s l).sys.queue = s.queue) := by
  have h' := (run_spec env s l res h).2.2.2.2
  constructor
  · intro hl; rw [h']; simp [hl]
  · intro hl; rw [h', if_neg (by simpa using hl)]

/-- The queue is untouched by a run of a list even if the run raises. -/
theorem C53_queue_untouched (env : Env W P X R E) (s : Sys W P X) (l : List (Item P X))
    (hl : l ≠ []) : (run env s l).sys.queue = s.queue := by
  have : l.isEmpty = false := by cases l <;> simp_all
  simp [run, this]

/-- `queue` keeps the order, over any number of calls. -/
theorem C53_enqueue (s : Sys W P X) (a b : List (Item P X)) :
    (enqueue s (a ++ b)) = enqueue (enqueue s a) b ∧ (enqueue s a).queue = s.queue ++ a := by
  simp [enqueue]

/-- The rule for `x0`: `'op'` and `'op+ic'` stand for the first operating point of the run before
the analysis, without one any text stands for `None`, and everything else is left as it is. -/
theorem C53_x0 (env : Env W P X R E) (s : Sys W P X) (l : List (Item P X)) (hl : l ≠ [])
    (res : String → Option R) (h : (run env s l).out = .ok res) :
    X0Rule env l (run env s l).log := by
  have h' := (run_spec env s l res h).2.2.2.1
  rwa [if_neg (by simpa using hl)] at h'

/-- With one operating point before the analysis, `'op'` is the most recent one.
Missing: more than one, for which `C53_most_recent_refuted` shows the claim is false. -/
theorem C53_most_recent_partial (env : Env W P X R E) (s : Sys W P X) (l : List (Item P X))
    (res : String → Option R) (h : (run env s l).out = .ok res) (i j : Nat)
    (a : Item P X) (e f : Entry W P X R) (ha : l[i]? = some a) (hx : a.x0 = .label "op")
    (he : (run env s l).log[i]? = some e) (hf : (run env s l).log[j]? = some f)
    (hj : LastOp l j i)
    (hone : ∀ k b, k < i → l[k]? = some b → b.type = "op" → k = j) :
    e.item.x0 = .value (env.toX f.result) := by
  have hl : l ≠ [] := by rintro rfl; simp at ha
  refine (C53_x0 env s l hl res h).op i a e j f ha he hx ⟨hj.1, hj.2.1, fun k b hk hb hop => ?_⟩ hf
  have := hone k b (by have := hj.1; omega) hb hop
  omega

/-- An analysis of the queue that raises has been taken from the queue, those behind it stay. -/
theorem C53_failed (env : Env W P X R E) (s : Sys W P X) (a : Item P X) (rest : List (Item P X)) (w : W) (e : E)
    (hq : s.queue = a :: rest) (ha : ∀ l, a.x0 ≠ .label l) (he : env.exec s.world a = (w, .error e)) :
    (run env s []).sys.queue = rest ∧ (run env s []).sys.world = w ∧ (run env s []).out = .error (.exec e) := by
  have hd : dropLabel a = a := by
    unfold dropLabel
    split
    · rename_i l hl
      exact absurd hl (ha l)
    · rfl
  simp [run, hq, loop, step, hd, he]

theorem loop_unavailable (env : Env W P X R E) (hx : ∀ w it, ∃ w' r, env.exec w it = (w', .ok r)) (hi : ∀ w r, ∃ x, env.icX w r = .ok x)
    (l : String) (h1 : l ≠ "op") (h2 : l ≠ "op+ic") (n : Nat) :
    ∀ (ops : List (Item P X)) (o a : Item P X) (post : List (Item P X)) (st : St W P X R), (∀ b ∈ o :: ops, b.type = "op") →
      st.left = o :: (ops ++ a :: post) → a.x0 = .label l → st.x0s l = none → ops.length < n →
      (loop env n st).2 = some .unavailable := by
  induction n with
  | zero => intro ops o a post st ho hl ha hs hn; omega
  | succ n ih =>
    intro ops o a post st ho hl ha hs hn
    obtain ⟨w', r, he⟩ := hx st.world (dropLabel o)
    obtain ⟨x, hic⟩ := hi w' r
    have hs' : ((st.x0s.set "op" (env.toX r)).set "op+ic" x) l = none := by simp [X0s.set, h1, h2, hs]
    cases ops with
    | nil => simp [loop, hl, step, he, ho o (by simp), hic, handle, missing, ha, hs']
    | cons o' ops =>
      simp only [loop, hl, step, he, ho o (by simp), if_true, hic, List.cons_append, handle]
      generalize ((st.x0s.set "op" (env.toX r)).set "op+ic" x) = d at hs' ⊢
      by_cases hm : missing d o'.x0 = true
      · simp [hm]
      · simp only [hm, Bool.false_eq_true, if_false]
        refine ih (ops.map (resolve d)) (resolve d o') (resolve d a) (post.map (resolve d)) _ ?_ (by simp) ?_ hs' (by simpa using hn)
        · intro b hb
          rcases List.mem_cons.1 hb with rfl | hb
          · exact ho o' (by simp)
          · obtain ⟨c, hc, rfl⟩ := List.mem_map.1 hb
            exact ho c (by simp [hc])
        · simp [resolve, resolveX0, ha, hs']

/-- A label that no analysis provides is refused when an operating point stands before the analysis, however many do. -/
theorem C53_unavailable (env : Env W P X R E) (hx : ∀ w it, ∃ w' r, env.exec w it = (w', .ok r)) (hi : ∀ w r, ∃ x, env.icX w r = .ok x)
    (s : Sys W P X) (ops : List (Item P X)) (hne : ops ≠ []) (ho : ∀ b ∈ ops, b.type = "op") (a : Item P X) (post : List (Item P X))
    (l : String) (h1 : l ≠ "op") (h2 : l ≠ "op+ic") (ha : a.x0 = .label l) (hs : s.x0s l = none) :
    (run env s (ops ++ a :: post)).out = .error .unavailable := by
  obtain ⟨o, ops, rfl⟩ := List.exists_cons_of_ne_nil hne
  have := loop_unavailable env hx hi l h1 h2 ((o :: ops) ++ a :: post).length ops o a post ⟨s.world, s.x0s, (o :: ops) ++ a :: post, []⟩ ho
    rfl ha hs (by simp; omega)
  simp [run] at this ⊢
  rw [this]

/-! ### Witnesses -/

/-- An environment whose results are the payloads. -/
def demo : Env Unit Nat Nat Nat Unit where
  exec w a := (w, .ok a.payload)
  toX r := r
  icX _ r := .ok (r + 100)

def demoSys : Sys Unit Nat Nat := ⟨(), fun _ => none, []⟩

def op1 : Item Nat Nat := ⟨"op", .none, 1⟩
def op2 : Item Nat Nat := ⟨"op", .none, 2⟩
def tran3 : Item Nat Nat := ⟨"tran", .label "op", 3⟩

/-- With two operating points before the analysis, it does not get the most recent one. -/
theorem C53_most_recent_refuted :
    ¬ ∀ (l : List (Item Nat Nat)) (res : String → Option Nat) (i j : Nat) (a : Item Nat Nat)
      (e f : Entry Unit Nat Nat Nat), (run demo demoSys l).out = .ok res → l[i]? = some a →
      a.x0 = .label "op" → (run demo demoSys l).log[i]? = some e →
      (run demo demoSys l).log[j]? = some f → LastOp l j i →
      e.item.x0 = .value (demo.toX f.result) := by
  intro h
  have := h [op1, op2, tran3] _ 2 1 tran3 ⟨⟨"tran", .value 1, 3⟩, 3, ()⟩ ⟨op2, 2, ()⟩ rfl rfl rfl
    rfl rfl ⟨by decide, ⟨op2, rfl, rfl⟩, fun k b h1 h2 => by omega⟩
  simp [demo] at this

/-- An empty list of analyses is not run as such: the queue is run instead. -/
theorem C53_empty_list_refuted :
    ¬ ∀ (s : Sys Unit Nat Nat) (l : List (Item Nat Nat)),
      (run demo s l).log.map (fun e => what e.item) = l.map what := by
  intro h
  have := h ⟨(), fun _ => none, [op1]⟩ []
  simp [run, loop, step, demo, op1, dropLabel, handle, what] at this

example : (run demo demoSys [op1, tran3]).log.map (fun e => e.item) =
    [op1, ⟨"tran", .value 1, 3⟩] := by rfl
example : (run demo demoSys [tran3, op1]).log.map (fun e => e.item) =
    [⟨"tran", .none, 3⟩, op1] := by rfl
example : ((run demo demoSys [op1, op2, tran3]).log.map (fun e => e.result)) = [1, 2, 3] := by rfl

/-- the queue of `demoSys` with an analysis that raises in front; two operating points before an unknown label -/
example : (run ({ demo with exec := fun w it => if it.type = "dc" then (w, .error ()) else demo.exec w it } : Env _ _ _ _ _)
    { demoSys with queue := [⟨"dc", .absent, 5⟩, op1] } []).sys.queue = [op1] := by rfl
example : (run demo demoSys [op1, op2, { tran3 with x0 := .label "foo" }]).out = .error .unavailable := by rfl

/-! ### The analyses of a netlist (`main`) -/

/-- What a text in `x0` stands for in a netlist: the last operating point before it, or what the
module remembers from before. -/
structure X0Main (env : Env W P X R E) (d : X0s X) (items : List (Item P X))
    (log : List (Entry W P X R)) : Prop where
  op : ∀ (i : Nat) (a : Item P X) (e : Entry W P X R) (j : Nat) (f : Entry W P X R),
    items[i]? = some a → log[i]? = some e → a.x0 = .label "op" →
    LastOp items j i → log[j]? = some f → e.item.x0 = .value (env.toX f.result)
  opIc : ∀ (i : Nat) (a : Item P X) (e : Entry W P X R) (j : Nat) (f : Entry W P X R),
    items[i]? = some a → log[i]? = some e → a.x0 = .label "op+ic" →
    LastOp items j i → log[j]? = some f →
    ∃ x, env.icX f.world f.result = .ok x ∧ e.item.x0 = .value x
  noOp : ∀ (i : Nat) (a : Item P X) (e : Entry W P X R) (s : String),
    items[i]? = some a → log[i]? = some e → a.x0 = .label s → NoOp items i →
    ∃ x, d s = some x ∧ e.item.x0 = .value x
  user : ∀ (i : Nat) (a : Item P X) (e : Entry W P X R) (s : String),
    items[i]? = some a → log[i]? = some e → a.x0 = .label s → s ≠ "op" → s ≠ "op+ic" →
    ∃ x, d s = some x ∧ e.item.x0 = .value x
  other : ∀ (i : Nat) (a : Item P X) (e : Entry W P X R),
    items[i]? = some a → log[i]? = some e → (∀ s, a.x0 ≠ .label s) → e.item.x0 = a.x0

/-- One analysis of a netlist that does not raise. -/
theorem run_single (env : Env W P X R E) (s : Sys W P X) (a : Item P X)
    (res : String → Option R) (h : (run env s [a]).out = .ok res) :
    ∃ w r, env.exec s.world (dropLabel a) = (w, .ok r) ∧
      (run env s [a]).log = [⟨dropLabel a, r, w⟩] ∧ (run env s [a]).sys.world = w ∧
      (run env s [a]).sys.queue = s.queue ∧
      ((a.type ≠ "op" ∧ (run env s [a]).sys.x0s = s.x0s) ∨
       (a.type = "op" ∧ ∃ x, env.icX w r = .ok x ∧
        (run env s [a]).sys.x0s = (s.x0s.set "op" (env.toX r)).set "op+ic" x)) := by
  unfold run at h ⊢
  simp only [List.isEmpty_cons, Bool.false_eq_true, if_false, List.length_singleton, loop] at h ⊢
  cases hs : step env ⟨s.world, s.x0s, [a], []⟩ a [] with
  | mk s1 o =>
    rw [hs] at h
    cases o with
    | some e => simp at h
    | none =>
      obtain ⟨w, r, hx, hw, hlog, hcase⟩ := step_ok env _ s1 a [] hs
      refine ⟨w, r, hx, by simpa using hlog, hw, trivial, ?_⟩
      rcases hcase with ⟨h1, _, h2⟩ | ⟨h1, x, h2, h3, _⟩
      · exact Or.inl ⟨h1, h2⟩
      · exact Or.inr ⟨h1, x, h2, h3⟩

theorem lastOp_cons {a : Item P X} {rest : List (Item P X)} {j i : Nat}
    (h : LastOp (a :: rest) (j + 1) (i + 1)) : LastOp rest j i := by
  obtain ⟨hj, ⟨b, hb, hop⟩, hk⟩ := h
  refine ⟨by omega, ⟨b, by simpa using hb, hop⟩, fun k c h1 h2 hc => ?_⟩
  exact hk (k + 1) c (by omega) (by omega) (by simpa using hc)

theorem handle_single (d : X0s X) (a : Item P X) (items : List (Item P X))
    (h : handle d [a] = some items) : items = [resolve d a] ∧ missing d a.x0 = false := by
  unfold handle at h
  split at h
  · simp at *
  · rename_i b t heq
    obtain ⟨rfl, rfl⟩ : a = b ∧ [] = t := by simpa using heq
    split at h
    · simp at h
    · rename_i hm
      exact ⟨(by simpa using h.symm), by simpa using hm⟩

theorem mainLoop_ok (env : Env W P X R E) (items : List (Item P X)) : ∀ (s s' : Sys W P X)
    (L : List (Entry W P X R)), mainLoop env s items = (s', L, none) →
    Executed env s.world L ∧ L.map (fun e => what e.item) = items.map what ∧
      X0Main env s.x0s items L := by
  induction items with
  | nil =>
    intro s s' L h
    simp only [mainLoop, Prod.mk.injEq] at h
    obtain ⟨rfl, rfl, _⟩ := h
    exact ⟨trivial, rfl, by constructor <;> intros <;> simp_all⟩
  | cons a rest ih =>
    intro s s' L h
    simp only [mainLoop] at h
    cases hh : handle s.x0s [a] with
    | none => rw [hh] at h; simp at h
    | some it =>
      rw [hh] at h
      obtain ⟨rfl, hm⟩ := handle_single _ _ _ hh
      simp only at h
      cases ho : (run env s [resolve s.x0s a]).out with
      | error e => rw [ho] at h; simp at h
      | ok res =>
        rw [ho] at h
        simp only [Prod.mk.injEq] at h
        obtain ⟨h1, h2, h3⟩ := h
        obtain ⟨w, r, hx, hlog, hw, hq, hcase⟩ := run_single env s _ res ho
        cases hm2 : mainLoop env (run env s [resolve s.x0s a]).sys rest with
        | mk s2 q =>
          obtain ⟨L2, o2⟩ := q
          rw [hm2] at h1 h2 h3
          simp only at h1 h2 h3
          subst h1 h2 h3
          obtain ⟨i1, i2, i3⟩ := ih _ _ _ hm2
          rw [hlog]
          rw [hw] at i1
          -- the entry `x0` of the first analysis
          have hfirst : (dropLabel (resolve s.x0s a)).x0 = (resolve s.x0s a).x0 := by
            unfold dropLabel resolve
            cases hx0 : a.x0 with
            | label k =>
              simp only [hx0, missing] at hm
              cases hd : s.x0s k with
              | none => simp [hd] at hm
              | some v => simp [resolveX0, hd]
            | absent => simp [resolveX0]
            | none => simp [resolveX0]
            | value v => simp [resolveX0]
          have hlab : ∀ k, a.x0 = .label k → ∃ x, s.x0s k = some x ∧
              (resolve s.x0s a).x0 = .value x := by
            intro k hk
            simp only [hk, missing] at hm
            cases hd : s.x0s k with
            | none => simp [hd] at hm
            | some v => exact ⟨v, rfl, by simp [resolve, hk, resolveX0, hd]⟩
          have hx0s : (resolve s.x0s a).type = a.type := rfl
          refine ⟨⟨hx, i1⟩, ?_, ?_⟩
          · simp only [List.singleton_append, List.map_cons, i2]
            simp [what, resolve]
          · rw [List.singleton_append]
            -- values found in the dictionary after the first analysis
            have hd : ∀ (k : String), k ≠ "op" → k ≠ "op+ic" →
                (run env s [resolve s.x0s a]).sys.x0s k = s.x0s k := by
              intro k h1 h2
              rcases hcase with ⟨_, h3⟩ | ⟨_, x, _, h3⟩
              · rw [h3]
              · rw [h3]; simp [X0s.set, h1, h2]
            constructor
            · intro i b e j f hb he hxb hf hl
              cases i with
              | zero => exact absurd hf.1 (by omega)
              | succ i =>
                cases j with
                | succ j =>
                  exact i3.op i b e j f (by simpa using hb) (by simpa using he) hxb
                    (lastOp_cons hf) (by simpa using hl)
                | zero =>
                  have hno : NoOp rest i := fun k c hk hc =>
                    hf.2.2 (k + 1) c (by omega) (by omega) (by simpa using hc)
                  obtain ⟨x, hx1, hx2⟩ := i3.noOp i b e "op" (by simpa using hb)
                    (by simpa using he) hxb hno
                  obtain ⟨c, hc, hcop⟩ := hf.2.1
                  simp only [List.getElem?_cons_zero, Option.some.injEq] at hc hl
                  subst hc hl
                  rcases hcase with ⟨h3, _⟩ | ⟨_, y, _, h3⟩
                  · exact absurd hcop h3
                  · rw [h3] at hx1
                    have hx3 : some (env.toX r) = some x := by simpa [X0s.set] using hx1
                    rw [hx2, Option.some.inj hx3]
            · intro i b e j f hb he hxb hf hl
              cases i with
              | zero => exact absurd hf.1 (by omega)
              | succ i =>
                cases j with
                | succ j =>
                  exact i3.opIc i b e j f (by simpa using hb) (by simpa using he) hxb
                    (lastOp_cons hf) (by simpa using hl)
                | zero =>
                  have hno : NoOp rest i := fun k c hk hc =>
                    hf.2.2 (k + 1) c (by omega) (by omega) (by simpa using hc)
                  obtain ⟨x, hx1, hx2⟩ := i3.noOp i b e "op+ic" (by simpa using hb)
                    (by simpa using he) hxb hno
                  obtain ⟨c, hc, hcop⟩ := hf.2.1
                  simp only [List.getElem?_cons_zero, Option.some.injEq] at hc hl
                  subst hc hl
                  rcases hcase with ⟨h3, _⟩ | ⟨_, y, hy, h3⟩
                  · exact absurd hcop h3
                  · rw [h3] at hx1
                    have hx3 : some y = some x := by simpa [X0s.set] using hx1
                    exact ⟨x, by rw [← Option.some.inj hx3]; exact hy, hx2⟩
            · intro i b e k hb he hxb hno
              cases i with
              | zero =>
                simp only [List.getElem?_cons_zero, Option.some.injEq] at hb he
                subst hb he
                simp only [hfirst]
                exact hlab k hxb
              | succ i =>
                have ha : a.type ≠ "op" := hno 0 a (by omega) (by simp)
                have hno' : NoOp rest i := fun k c hk hc =>
                  hno (k + 1) c (by omega) (by simpa using hc)
                have := i3.noOp i b e k (by simpa using hb) (by simpa using he) hxb hno'
                rcases hcase with ⟨_, h3⟩ | ⟨h3, _⟩
                · rwa [h3] at this
                · exact absurd h3 ha
            · intro i b e k hb he hxb h1 h2
              cases i with
              | zero =>
                simp only [List.getElem?_cons_zero, Option.some.injEq] at hb he
                subst hb he
                simp only [hfirst]
                exact hlab k hxb
              | succ i =>
                have := i3.user i b e k (by simpa using hb) (by simpa using he) hxb h1 h2
                rwa [hd k h1 h2] at this
            · intro i b e hb he hxb
              cases i with
              | zero =>
                simp only [List.getElem?_cons_zero, Option.some.injEq] at hb he
                subst hb he
                simp only [hfirst, resolve]
                cases h0 : a.x0 with
                | label k => exact absurd h0 (hxb k)
                | absent => rfl
                | none => rfl
                | value v => rfl
              | succ i => exact i3.other i b e (by simpa using hb) (by simpa using he) hxb

/-- The analyses of a netlist are executed once each, in their order, and a text in `x0` stands
for the last operating point before the analysis in the netlist; other labels for the conditions
of the netlist. -/
theorem C95_netlist (env : Env W P X R E) (s s' : Sys W P X) (items : List (Item P X))
    (L : List (Entry W P X R)) (h : mainLoop env s items = (s', L, none)) :
    Executed env s.world L ∧ L.map (fun e => (e.item.type, e.item.payload)) =
      items.map (fun a => (a.type, a.payload)) ∧ X0Main env s.x0s items L :=
  mainLoop_ok env items s s' L h

/-- In a fresh session, a netlist in which an analysis asks for an operating point before any has
been computed, or for a condition that is not there, is refused.
Missing: sessions in which another circuit was simulated before (`C95_other_circuit_refuted`). -/
theorem C95_refused_partial (env : Env W P X R E) (s : Sys W P X) (items : List (Item P X))
    (i : Nat) (a : Item P X) (k : String) (ha : items[i]? = some a) (hk : a.x0 = .label k)
    (hno : NoOp items i) (hfresh : s.x0s k = none) :
    (mainLoop env s items).2.2 ≠ none := by
  intro h
  obtain ⟨_, h2, h3⟩ := mainLoop_ok env items s (mainLoop env s items).1
    (mainLoop env s items).2.1 (by rw [← h])
  have hlen : (mainLoop env s items).2.1.length = items.length := by
    simpa using congrArg List.length h2
  have hi : i < items.length := by
    by_contra hc
    rw [List.getElem?_eq_none (by omega)] at ha
    simp at ha
  obtain ⟨x, hx, _⟩ := h3.noOp i a _ k ha (List.getElem?_eq_getElem (by omega)) hk hno
  simp [hfresh] at hx

/-- After a netlist with an operating point, a transient analysis of another netlist that has none
starts from the operating point of the first circuit. -/
theorem C95_other_circuit_refuted :
    ¬ ∀ (first second : List (Item Nat Nat)),
      (∀ a ∈ second, a.type ≠ "op") → (∃ a ∈ second, a.x0 = .label "op") →
      (mainLoop demo (mainLoop demo demoSys first).1 second).2.2 ≠ none := by
  intro h
  have := h [op1] [tran3] (by simp [tran3]) ⟨tran3, by simp, rfl⟩
  simp [mainLoop, handle, demoSys, run, loop, step, demo, op1, tran3, dropLabel, resolve,
    resolveX0, missing, X0s.set] at this

example : (mainLoop demo demoSys [op1, op2, tran3]).2.1.map (fun e => e.item) =
    [op1, op2, ⟨"tran", .value 2, 3⟩] := by rfl
example : (mainLoop demo demoSys [tran3, op1]).2.2 = some .unavailable := by rfl

/-! ### `get_op_x0` -/

/-- `get_op_x0` runs one operating point and returns the dictionary of results, whose only entry
is the solution. Missing: the documented value (`C96_documented_refuted`). -/
theorem C96_get_op_x0_partial (env : Env W P X R E) (s : Sys W P X) (op : Item P X)
    (hop : op.type = "op") (v : Ret R) (h : (getOpX0 env s op).2 = .ok v) :
    ∃ w r, env.exec s.world (dropLabel op) = (w, .ok r) ∧
      v = .dict (fun t => if t = "op" then some r else none) ∧
      (getOpX0 env s op).1.queue = s.queue := by
  simp only [getOpX0] at h ⊢
  cases ho : (run env s [op]).out with
  | error e => rw [ho] at h; simp [Except.map] at h
  | ok res =>
    rw [ho] at h
    simp only [Except.map, Except.ok.injEq] at h
    subst h
    obtain ⟨w, r, hx, hlog, _, hq, _⟩ := run_single env s op res ho
    refine ⟨w, r, hx, ?_, hq⟩
    rw [(run_spec env s [op] res ho).1, hlog]
    simp [resultsOf, hop]

/-- The documented value, the solution of the operating point, is never returned. -/
theorem C96_documented_refuted (env : Env W P X R E) (s : Sys W P X) (op : Item P X) (r : R) :
    (getOpX0 env s op).2 ≠ .ok (.solution r) := by
  simp only [getOpX0]
  cases (run env s [op]).out <;> simp [Except.map]

example : ∃ d, (getOpX0 demo demoSys op1).2 = .ok (.dict d) ∧ d "op" = some 1 := ⟨_, rfl, rfl⟩

end Verif.Run
