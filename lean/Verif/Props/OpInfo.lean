import Verif.Model.OpInfo
import Verif.Props.Devices
import Verif.Props.Power
import Verif.Props.Vde

/-!
C147: the element tables of an operating point.
-/

namespace Verif.OpInfo
open Verif.Circuit Verif.Mna Verif.Results

section Table
variable {α : Type} [Field α]

/-! ### Dictionaries -/

theorem dget_dput {κ ν : Type} [DecidableEq κ] (d : List (κ × ν)) (k k' : κ) (v : ν) :
    dget (dput d k v) k' = if k = k' then some v else dget d k' := by
  induction d with
  | nil => simp [dput, dget]
  | cons p r ih =>
    obtain ⟨a, b⟩ := p
    simp only [dput]
    by_cases h1 : a = k
    · subst h1; by_cases h2 : a = k' <;> simp [dget, h2]
    · rw [if_neg h1]
      simp only [dget]
      by_cases h2 : a = k'
      · subst h2; simp [Ne.symm h1]
      · rw [if_neg h2, if_neg h2, ih]

/-! ### The rows -/

variable (dev : String → List α → Except Err (Info α)) (circ : List (Elem α)) (nv1 : Nat) (y : Nat → α)

/-- what an element contributes under the letter `c` -/
def under (c : Char) (e : Elem α) : Option (Info α) :=
  match info dev circ nv1 y e with
  | some (.ok i) => if (upper e.id).head? = some c then some i else none
  | _ => none

/-- the rows under the letter `c` -/
def rowsOf (c : Char) (l : List (Elem α)) : List (Row α) :=
  l.filterMap fun e => (under dev circ nv1 y c e).map fun i => (upper e.id, i.cells)

/-- a table is there if it has rows -/
def asGroup (rows : List (Row α)) : Option (Entry α) := if rows = [] then none else some (.group rows)

structure Inv (t : Tables α) (l : List (Elem α)) : Prop where
  rows : ∀ c, c ≠ 'M' → dget t.info [c] = asGroup (rowsOf dev circ nv1 y c l)
  keys : ∀ c, c ≠ 'M' → dget t.keys [c] = (l.filterMap (under dev circ nv1 y c)).head?.map Info.keys

theorem asGroup_append (rows : List (Row α)) (r : Row α) : asGroup (rows ++ [r]) = some (.group (rows ++ [r])) := by
  simp [asGroup]

theorem step_inv {t t' : Tables α} {l : List (Elem α)} {e : Elem α} (hi : Inv dev circ nv1 y t l)
    (h : infoStep dev circ nv1 y t e = .ok t') : Inv dev circ nv1 y t' (l ++ [e]) := by
  unfold infoStep at h
  cases hinfo : info dev circ nv1 y e with
  | none =>
    rw [hinfo] at h
    simp only [Except.ok.injEq] at h
    subst h
    have hu : ∀ c, under dev circ nv1 y c e = none := fun c => by simp [under, hinfo]
    constructor
    · intro c hc; rw [hi.rows c hc]; simp [rowsOf, hu]
    · intro c hc; rw [hi.keys c hc]; simp [hu]
  | some r =>
    rw [hinfo] at h
    cases r with
    | error x => simp at h
    | ok i =>
      simp only at h
      unfold record at h
      cases hid : upper e.id with
      | nil => rw [hid] at h; simp at h
      | cons c0 rest =>
        rw [hid] at h
        have hu : ∀ c, under dev circ nv1 y c e = if c0 = c then some i else none := fun c => by
          simp [under, hinfo, hid]
        have hrow : ∀ c, rowsOf dev circ nv1 y c (l ++ [e]) =
            rowsOf dev circ nv1 y c l ++ if c0 = c then [(upper e.id, i.cells)] else [] := fun c => by
          unfold rowsOf
          rw [List.filterMap_append]
          congr 1
          by_cases hc : c0 = c <;> simp [hu, hc]
        have hkey : ∀ c, (l ++ [e]).filterMap (under dev circ nv1 y c) =
            l.filterMap (under dev circ nv1 y c) ++ if c0 = c then [i] else [] := fun c => by
          rw [List.filterMap_append]
          congr 1
          by_cases hc : c0 = c <;> simp [hu, hc]
        have hemp : ∀ c, rowsOf dev circ nv1 y c l = [] ↔ l.filterMap (under dev circ nv1 y c) = [] := fun c => by
          simp [rowsOf, List.filterMap_eq_nil_iff]
        simp only at h
        by_cases hm : c0 = 'M'
        · subst hm
          rw [if_neg (by simp)] at h
          simp only [Except.ok.injEq] at h
          subst h
          have hne : ∀ c, c ≠ 'M' → ('M' :: rest) ≠ [c] := fun c hc hh => by
            simp only [List.cons.injEq] at hh; exact hc hh.1.symm
          constructor
          · intro c hc
            rw [dget_dput, if_neg (hne c hc), hi.rows c hc, hrow, if_neg (Ne.symm hc), List.append_nil]
          · intro c hc
            rw [dget_dput, if_neg (hne c hc), hi.keys c hc, hkey, if_neg (Ne.symm hc), List.append_nil]
        · rw [if_pos hm] at h
          have h0 := hi.rows c0 hm
          unfold asGroup at h0
          by_cases he : rowsOf dev circ nv1 y c0 l = []
          · rw [if_pos he] at h0
            rw [h0] at h
            simp only [Except.ok.injEq] at h
            subst h
            constructor
            · intro c hc
              rw [dget_dput, hrow]
              by_cases hcc : c0 = c
              · subst hcc; simp [he, asGroup, hid]
              · rw [if_neg (by simpa using hcc), hi.rows c hc, if_neg hcc, List.append_nil]
            · intro c hc
              rw [dget_dput, hkey]
              by_cases hcc : c0 = c
              · subst hcc; simp [(hemp c0).1 he]
              · rw [if_neg (by simpa using hcc), hi.keys c hc, if_neg hcc, List.append_nil]
          · rw [if_neg he] at h0
            rw [h0] at h
            simp only [Except.ok.injEq] at h
            subst h
            constructor
            · intro c hc
              rw [dget_dput, hrow]
              by_cases hcc : c0 = c
              · subst hcc; rw [if_pos rfl, if_pos rfl, asGroup_append, hid]
              · rw [if_neg (by simpa using hcc), hi.rows c hc, if_neg hcc, List.append_nil]
            · intro c hc
              rw [hi.keys c hc, hkey]
              by_cases hcc : c0 = c
              · subst hcc
                have hne : l.filterMap (under dev circ nv1 y c0) ≠ [] := fun hh => he ((hemp c0).2 hh)
                rw [if_pos rfl, List.head?_append_of_ne_nil _ hne]
              · rw [if_neg hcc, List.append_nil]

theorem loop_inv : ∀ (l done : List (Elem α)) (t t' : Tables α), Inv dev circ nv1 y t done →
    Mna.loop (infoStep dev circ nv1 y) t l = .ok t' → Inv dev circ nv1 y t' (done ++ l)
  | [], done, t, t', hi, h => by
    simp only [Mna.loop, Except.ok.injEq] at h
    subst h; simpa using hi
  | e :: r, done, t, t', hi, h => by
    rw [Mna.loop] at h
    cases hs : infoStep dev circ nv1 y t e with
    | error x => rw [hs] at h; simp at h
    | ok t1 =>
      rw [hs] at h
      have := loop_inv r (done ++ [e]) t1 t' (step_inv dev circ nv1 y hi hs) h
      simpa using this

/-- C147: under every letter but M stand, in the order of the circuit, the rows of the elements whose names begin with
this letter, and nothing else; the head is that of the first. -/
theorem C147_rows {t : Tables α} (h : opInfo dev circ nv1 y = .ok t) (c : Char) (hc : c ≠ 'M') :
    dget t.info [c] = asGroup (rowsOf dev circ nv1 y c circ) ∧
    dget t.keys [c] = (circ.filterMap (under dev circ nv1 y c)).head?.map Info.keys := by
  have := loop_inv dev circ nv1 y circ [] ⟨[], []⟩ t
    ⟨fun c _ => by simp [dget, rowsOf, asGroup], fun c _ => by simp [dget]⟩ h
  exact ⟨this.rows c hc, this.keys c hc⟩

/-! ### The values -/

/-- the elements have names, sources have values and devices are driven by the voltage between their terminals -/
def Ready (e : Elem α) : Prop :=
  upper e.id ≠ [] ∧ match e with
  | .V _ _ _ s => (s.eval none).isSome = true
  | .I _ _ _ s => (s.eval none).isSome = true
  | .NL _ n1 n2 _ ports _ => ports = [(n1, n2)]
  | _ => True

/-- what the table should show for an element, `x` being all voltages and currents -/
def shown (law : String → Devices.Law α) (tail : String → List (String × α)) (circ : List (Elem α)) (nv : Nat)
    (x : Vec α) : Elem α → Option (List α)
  | .R _ n1 n2 r => some [r, x n1 - x n2, (x n1 - x n2) / r, (x n1 - x n2) * ((x n1 - x n2) / r)]
  | .C _ n1 n2 c _ => some [x n1 - x n2, c * (x n1 - x n2), c * (x n1 - x n2) ^ 2 / 2]
  | .L id _ _ l _ _ =>
    some [l * x (nv + branchOf circ id), x (nv + branchOf circ id), l * x (nv + branchOf circ id) ^ 2 / 2]
  | .V id _ _ s => some [opVal s, x (nv + branchOf circ id), opVal s * x (nv + branchOf circ id)]
  | .I _ n1 n2 s => some [x n1 - x n2, opVal s, (x n1 - x n2) * opVal s]
  | .NL id n1 n2 _ _ _ => some ([x n1 - x n2, (law id).i (x n1 - x n2), (x n1 - x n2) * (law id).i (x n1 - x n2),
      (law id).gm (x n1 - x n2)] ++ (tail id).map Prod.snd)
  | _ => none

theorem vde_found {circ : List (Elem α)} {e : Elem α} (he : e ∈ circ) (hv : e.vde = true) :
    findVdeIndex circ e.id = .ok (branchOf circ e.id) := by
  cases h : findVdeIndex circ e.id with
  | ok k => rw [(findVdeIndex_branchOf h).1]
  | error x => exact absurd ⟨e, he, hv, rfl⟩ ((C05_index_error circ e.id x).1 h).2

theorem info_shown (law : String → Devices.Law α) (tail : String → List (String × α)) {circ : List (Elem α)} {nv : Nat}
    (hnv : 0 < nv) {x : Vec α} (h0 : x 0 = 0) {e : Elem α} (he : e ∈ circ) (hr : Ready e) :
    match info (fun id => devInfo (law id) (tail id)) circ (nv - 1) (fun i => x (i + 1)) e with
    | none => shown law tail circ nv x e = none
    | some (.ok i) => shown law tail circ nv x e = some i.cells
    | some (.error _) => False := by
  have hx : ∀ j, x (nv - 1 + j + 1) = x (nv + j) := fun j => by congr 1; omega
  obtain ⟨-, hr⟩ := hr
  cases e with
  | R id a b r =>
    simp only [info, shown, portV_eq x h0, Option.some.injEq, List.cons.injEq, and_true, true_and]
    ring
  | C id a b c ic =>
    simp only [info, shown, portV_eq x h0, Option.some.injEq, List.cons.injEq, and_true, true_and]
    exact ⟨by ring, by ring⟩
  | L id a b l ic cc =>
    have := vde_found he rfl
    simp only [Elem.id] at this
    simp only [info, withCurrent, this, shown, hx, Option.some.injEq, List.cons.injEq, and_true, true_and]
    ring
  | V id a b s =>
    have := vde_found he rfl
    simp only [Elem.id] at this
    obtain ⟨v, hv⟩ := Option.isSome_iff_exists.1 (show (s.eval none).isSome = true from hr)
    simp only [info, withCurrent, this, valueOf, hv, shown, hx, opVal, Option.getD_some]
  | I id a b s =>
    obtain ⟨v, hv⟩ := Option.isSome_iff_exists.1 (show (s.eval none).isSome = true from hr)
    simp only [info, valueOf, hv, shown, opVal, Option.getD_some, portV_eq x h0]
  | NL id a b se ports op =>
    obtain rfl : ports = [(a, b)] := hr
    simp only [info, devInfo, List.map_cons, List.map_nil, shown, portV_eq x h0]
  | _ => simp only [info, shown]

omit [Field α] in
theorem record_ok (t : Tables α) {id : String} (i : Info α) (h : upper id ≠ []) : ∃ t', record t id i = .ok t' := by
  unfold record
  cases hu : upper id with
  | nil => exact absurd hu h
  | cons c r =>
    simp only
    split_ifs
    · cases dget t.info [c] with
      | none => exact ⟨_, rfl⟩
      | some e => cases e <;> exact ⟨_, rfl⟩
    · exact ⟨_, rfl⟩

theorem loop_ok (law : String → Devices.Law α) (tail : String → List (String × α)) {circ : List (Elem α)} {nv : Nat}
    (hnv : 0 < nv) {x : Vec α} (h0 : x 0 = 0) (l : List (Elem α)) (hl : ∀ e ∈ l, e ∈ circ) (hr : ∀ e ∈ l, Ready e)
    (t : Tables α) : ∃ t', Mna.loop (infoStep (fun id => devInfo (law id) (tail id)) circ (nv - 1)
      (fun i => x (i + 1))) t l = .ok t' := by
  induction l generalizing t with
  | nil => exact ⟨t, rfl⟩
  | cons e r ih =>
    have ih' := ih (fun e he => hl e (List.mem_cons_of_mem _ he)) (fun e he => hr e (List.mem_cons_of_mem _ he))
    have hs := info_shown law tail hnv h0 (hl e (List.mem_cons_self ..)) (hr e (List.mem_cons_self ..))
    rw [Mna.loop, infoStep]
    revert hs
    cases info (fun id => devInfo (law id) (tail id)) circ (nv - 1) (fun i => x (i + 1)) e with
    | none => intro _; exact ih' t
    | some q =>
      cases q with
      | error y => intro hs; exact hs.elim
      | ok i =>
        intro _
        obtain ⟨t', ht'⟩ := record_ok t i (hr e (List.mem_cons_self ..)).1
        simp only [ht']
        exact ih' t'

/-- C147: the tables are built, and they show for every element with a table the value, voltage, current, charge, flux,
energy and power that belong to the solution; elements stand in the order of the circuit under the first letter of
their names. -/
theorem C147_values (law : String → Devices.Law α) (tail : String → List (String × α)) {circ : List (Elem α)} {nv : Nat}
    (hnv : 0 < nv) {x : Vec α} (h0 : x 0 = 0) (hr : ∀ e ∈ circ, Ready e) :
    ∃ t, opInfo (fun id => devInfo (law id) (tail id)) circ (nv - 1) (fun i => x (i + 1)) = .ok t ∧
      ∀ c, c ≠ 'M' → dget t.info [c] = asGroup (circ.filterMap fun e =>
        if (upper e.id).head? = some c then (shown law tail circ nv x e).map (upper e.id, ·) else none) := by
  obtain ⟨t, ht⟩ := loop_ok law tail hnv h0 circ (fun _ h => h) hr ⟨[], []⟩
  refine ⟨t, ht, fun c hc => ?_⟩
  rw [(C147_rows _ circ _ _ ht c hc).1]
  congr 1
  refine List.filterMap_congr fun e he => ?_
  have hs := info_shown law tail hnv h0 he (hr e he)
  unfold under
  revert hs
  cases info (fun id => devInfo (law id) (tail id)) circ (nv - 1) (fun i => x (i + 1)) e with
  | none => intro hs; simp only at hs; simp [hs]
  | some q =>
    cases q with
    | error y => intro hs; exact hs.elim
    | ok i => intro hs; simp only at hs; split_ifs <;> simp [hs]

end Table

/-! ### The balance of power -/

section Balance
variable {K : Type} [Field K] [LinearOrder K] [IsStrictOrderedRing K]

/-- the column of a row with a head -/
def cell {α : Type} [Field α] (head : List String) (cells : List α) (label : String) : α :=
  (dget (head.zip cells) label).getD 0

/-- the sum of the column `P [W]` of the table of a letter -/
def column {α : Type} [Field α] (t : Tables α) (c : Char) : α :=
  match dget t.info [c] with
  | some (.group rows) => (rows.map fun r => cell ((dget t.keys [c]).getD []) r.2 "P [W]").sum
  | _ => 0

/-- the sum of the columns `P [W]` of the tables that have one -/
def tablePower {α : Type} [Field α] (t : Tables α) : α := column t 'R' + column t 'V' + column t 'I' + column t 'D'

/-- names begin with the letter of the kind -/
def Lettered {α : Type} (e : Elem α) : Prop :=
  match e with
  | .R .. => (upper e.id).head? = some 'R'
  | .V .. => (upper e.id).head? = some 'V'
  | .I .. => (upper e.id).head? = some 'I'
  | .NL .. => (upper e.id).head? = some 'D'
  | .C .. => (upper e.id).head? = some 'C'
  | .L .. => (upper e.id).head? = some 'L'
  | _ => True

/-- voltage times current of an element -/
def power (law : String → Devices.Law K) (circ : List (Elem K)) (nv : Nat) (x : Vec K) : Elem K → K
  | .R _ n1 n2 r => (x n1 - x n2) * ((x n1 - x n2) / r)
  | .V id _ _ s => opVal s * x (nv + branchOf circ id)
  | .I _ n1 n2 s => (x n1 - x n2) * opVal s
  | .NL id n1 n2 _ _ _ => (x n1 - x n2) * (law id).i (x n1 - x n2)
  | _ => 0

/-- static sources -/
def Fixed {α : Type} : Elem α → Prop
  | .V _ _ _ s | .I _ _ _ s => s.timeDep = false
  | _ => True

theorem point_power {m nv : Nat} {circ : List (Elem K)} {s : Sys K} {g : K} {law : String → Devices.Law K} (hnv : 0 < nv)
    (he : ∀ e ∈ circ, NodesLt nv e) (hp : ∀ e ∈ circ, Devices.Part e) (ha : ∀ e ∈ circ, Devices.Apart e)
    (hu : Mna.UniqueVde circ) (hf : ∀ e ∈ circ, Fixed e) (h : generate circ nv = .ok s) (hm : s.size = m + 1)
    {y : Fin m → K} (hy : Devices.IsPoint nv g law circ s y) :
    (circ.map (power law circ nv (Rlc.ext y))).sum +
      g * ∑ r ∈ Finset.range nv, Rlc.ext y r * Rlc.ext y r = 0 := by
  set X := Rlc.ext y with hX
  have hpp : ∀ e ∈ circ, Proper e := fun e he => by
    have := hp e he
    cases e <;> simp_all [Devices.Part, Recip.TwoPole, Proper, Elem.nonlinear]
  have hpl : ∀ e ∈ circ, Plain e := fun e he => by
    have := hp e he
    cases e <;> simp_all [Devices.Part, Recip.TwoPole, Plain, Elem.nonlinear]
  obtain ⟨hz, hn, hb⟩ := C07_equations_are_circuit_laws_partial he hpp hpl h X
  have hS : Recip.Solution nv s.size s.M (fun _ _ => 0) (fun r => s.N r + Devices.currents law circ y r) 0 g X := by
    rw [hm]
    refine (Bound.solution_iff hnv s.M _ g y).1 ?_
    funext i
    have := hy i
    rw [Devices.vecT_eq law ha] at this
    rw [Pi.add_apply, Pi.zero_apply]
    simp only [Rlc.reduceV]
    linear_combination this
  have row : ∀ r, 0 < r → r < s.size → mulVec s.size s.M X r + s.N r + Devices.currents law circ y r +
      (if r < nv then g * X r else 0) = 0 := fun r h0 h1 => by
    have := hS.2 r h0 h1
    linear_combination this
  have high : ∀ r, nv ≤ r → Devices.currents law circ y r = 0 := fun r hr => by
    rw [Devices.currents, ← Devices.devSum_none circ]
    refine Devices.devSum_congr circ fun id n1 n2 a b c hin => ?_
    have ht := he _ hin
    simp only [NodesLt] at ht
    simp only [inj]
    rw [if_neg (by omega), if_neg (by omega), sub_zero]
  -- the voltages of branches
  have branch : ∀ e ∈ circ, e.vde = true → Mna.law circ nv X staticVal e = 0 := fun e hin hv => by
    obtain ⟨k, hk⟩ := List.getElem?_of_mem (List.mem_filter.2 ⟨hin, hv⟩ : e ∈ vdes circ)
    have hlt : k < (vdes circ).length := (List.getElem?_eq_some_iff.1 hk).1
    have := row (nv + k) (by omega) (by omega)
    rw [high _ (by omega), if_neg (by omega), add_zero, add_zero] at this
    rw [← hb k e hk, this]
  -- the nodes
  have node : ∑ r ∈ Finset.range nv, X r * (kcl circ nv X staticVal circ 0 r + Devices.currents law circ y r + g * X r)
      = 0 := Finset.sum_eq_zero fun r hr => by
    have hr := Finset.mem_range.1 hr
    by_cases h0 : r = 0
    · subst h0; rw [hX]; simp [Rlc.ext]
    · have := row r (Nat.pos_of_ne_zero h0) (by omega)
      rw [hn r hr, if_pos hr] at this
      rw [this, mul_zero]
  have split : ∀ r, kcl circ nv X staticVal circ 0 r + Devices.currents law circ y r =
      (circ.map fun e => inj (term e).1 (term e).2 (currentN circ nv X staticVal e) r +
        Devices.devTerm (fun id n1 n2 => inj n1 n2 ((law id).i (X n1 - X n2)) r) e).sum := fun r => by
    rw [kcl_eq_sum hu, Devices.currents, Devices.devSum, ← List.sum_map_add]
  have swap : ∀ l : List (Elem K), (∀ e ∈ l, e ∈ circ) → ∑ r ∈ Finset.range nv, X r *
      (l.map fun e => inj (term e).1 (term e).2 (currentN circ nv X staticVal e) r +
        Devices.devTerm (fun id n1 n2 => inj n1 n2 ((law id).i (X n1 - X n2)) r) e).sum =
      (l.map (power law circ nv X)).sum := by
    intro l
    induction l with
    | nil => intro _; simp
    | cons e t ih =>
      intro hl
      simp only [List.map_cons, List.sum_cons, mul_add, Finset.sum_add_distrib]
      rw [← ih fun e he => hl e (List.mem_cons_of_mem _ he)]
      congr 1
      have hin := hl e (List.mem_cons_self ..)
      have ht := (he e hin).term_lt' hnv
      have hfe := hf e hin
      rw [sum_inj X _ _ _ ht.1 ht.2]
      have hpe := hp e hin
      cases e with
      | NL id n1 n2 a b c =>
        simp only [term] at ht
        simp only [currentN, current, mul_zero, zero_add, Devices.devTerm, power]
        rw [sum_inj X _ _ _ ht.1 ht.2]
      | R id n1 n2 r => simp [currentN, current, Devices.devTerm, power, term]
      | C id n1 n2 c ic => simp [currentN, current, Devices.devTerm, power, term]
      | K c => simp [currentN, current, Devices.devTerm, power, term]
      | I id n1 n2 src =>
        simp only [Fixed] at hfe
        simp [currentN, current, Devices.devTerm, power, term, staticVal, opVal, hfe, Src.eval_static]
      | V id n1 n2 src =>
        have hb := branch _ hin rfl
        simp only [Mna.law, staticVal, Fixed] at hb hfe
        rw [hfe] at hb
        simp only [Bool.false_eq_true, if_false] at hb
        simp only [currentN, current, Devices.devTerm, power, term, mul_zero, Finset.sum_const_zero, add_zero, opVal,
          Src.eval_static _ _ hfe, Elem.id]
        rw [sub_eq_zero.1 hb]
      | L id n1 n2 l ic cc =>
        have hb := branch _ hin rfl
        simp only [Mna.law] at hb
        simp [currentN, current, Devices.devTerm, power, term, hb]
      | _ => simp [Devices.Part, Recip.TwoPole, Elem.nonlinear] at hpe
  rw [← swap circ fun _ h => h, Finset.mul_sum, ← Finset.sum_add_distrib]
  refine Eq.trans ?_ node
  refine Finset.sum_congr rfl fun r _ => ?_
  rw [split]
  ring

theorem rows_sum (dev : String → List K → Except Err (Info K)) (circ : List (Elem K)) (nv1 : Nat) (y : Nat → K) (c : Char)
    (val : List K → K) (f : Elem K → K) (l : List (Elem K))
    (h : ∀ e ∈ l, match under dev circ nv1 y c e with
      | some i => val i.cells = f e
      | none => f e = 0) :
    ((rowsOf dev circ nv1 y c l).map fun r => val r.2).sum = (l.map f).sum := by
  induction l with
  | nil => rfl
  | cons e t ih =>
    have ih := ih fun e he => h e (List.mem_cons_of_mem _ he)
    have h1 := h e (List.mem_cons_self ..)
    unfold rowsOf at ih ⊢
    rw [List.filterMap_cons, List.map_cons, List.sum_cons, ← ih]
    revert h1
    cases under dev circ nv1 y c e with
    | none => intro h1; simp only at h1; simp [h1]
    | some i => intro h1; simp only at h1; simp [h1]

theorem column_sum {dev : String → List K → Except Err (Info K)} {circ : List (Elem K)} {nv1 : Nat} {y : Nat → K}
    {t : Tables K} (h : opInfo dev circ nv1 y = .ok t) {c : Char} (hc : c ≠ 'M') (f : Elem K → K)
    (hf : ∀ e0 ∈ circ, ∀ i0, under dev circ nv1 y c e0 = some i0 → ∀ e ∈ circ,
      ∀ i, under dev circ nv1 y c e = some i → cell i0.keys i.cells "P [W]" = f e)
    (h0 : ∀ e ∈ circ, under dev circ nv1 y c e = none → f e = 0) : column t c = (circ.map f).sum := by
  obtain ⟨h1, h2⟩ := C147_rows dev circ nv1 y h c hc
  rw [column, h1, h2]
  unfold asGroup
  cases hl : circ.filterMap (under dev circ nv1 y c) with
  | nil =>
    have hz : ∀ e ∈ circ, under dev circ nv1 y c e = none := List.filterMap_eq_nil_iff.1 hl
    rw [if_pos (show rowsOf dev circ nv1 y c circ = [] from
      List.filterMap_eq_nil_iff.2 fun e he => by rw [hz e he]; rfl)]
    refine (List.sum_eq_zero fun v hv => ?_).symm
    obtain ⟨e, he, rfl⟩ := List.mem_map.1 hv
    exact h0 e he (hz e he)
  | cons i0 r =>
    obtain ⟨e0, he0, hi0⟩ := List.mem_filterMap.1 (hl ▸ List.mem_cons_self .. : i0 ∈ circ.filterMap _)
    rw [if_neg (fun hz => by
      have := List.filterMap_eq_nil_iff.1 hz e0 he0
      rw [hi0] at this
      simp at this)]
    simp only [List.head?_cons, Option.map_some, Option.getD_some]
    refine rows_sum dev circ nv1 y c (fun r => cell i0.keys r "P [W]") f circ fun e he => ?_
    cases hu : under dev circ nv1 y c e with
    | none => exact h0 e he hu
    | some i => exact hf e0 he0 i0 hi0 e he i hu

/-- what stands under the four letters -/
theorem under_letter (law : String → Devices.Law K) (tail : String → List (String × K)) {circ : List (Elem K)} {nv : Nat}
    (hnv : 0 < nv) {x : Vec K} (h0 : x 0 = 0) {e : Elem K} (he : e ∈ circ) (hr : Ready e) (hl : Lettered e) {c : Char}
    {i : Info K} (hu : under (fun id => devInfo (law id) (tail id)) circ (nv - 1) (fun i => x (i + 1)) c e = some i) :
    (upper e.id).head? = some c ∧
    (c = 'R' → i.keys = ["R [Ω]", "V(n1,n2) [V]", "I(n1->n2) [A]", "P [W]"] ∧
      ∃ u v w, i.cells = [u, v, w, power law circ nv x e]) ∧
    (c = 'V' → i.keys = ["V(n1,n2) [V]", "I(n1->n2) [A]", "P [W]"] ∧ ∃ u v, i.cells = [u, v, power law circ nv x e]) ∧
    (c = 'I' → i.keys = ["V(n1-n2) [V]", "I [A]", "P [W]"] ∧ ∃ u v, i.cells = [u, v, power law circ nv x e]) ∧
    (c = 'D' → (∃ r, i.keys = ["V(n1-n2) [V]", "I(n1-n2) [A]", "P [W]"] ++ r) ∧
      ∃ u v r, i.cells = [u, v, power law circ nv x e] ++ r) := by
  have hs := info_shown law tail hnv h0 he hr
  unfold under at hu
  revert hs hu
  cases hinfo : info (fun id => devInfo (law id) (tail id)) circ (nv - 1) (fun i => x (i + 1)) e with
  | none => intro hu; simp at hu
  | some q =>
    cases q with
    | error y => intro hu; simp at hu
    | ok i' =>
      intro hu hs
      simp only at hu hs
      split_ifs at hu with hh
      obtain rfl : i' = i := by simpa using hu
      refine ⟨hh, ?_⟩
      cases e with
      | R id a b r =>
        rw [Lettered, hh] at hl
        obtain rfl : c = 'R' := by simpa using hl
        simp only [shown, Option.some.injEq] at hs
        simp only [info, Option.some.injEq, Except.ok.injEq] at hinfo
        refine ⟨fun _ => ⟨by rw [← hinfo], _, _, _, hs.symm⟩, ?_, ?_, ?_⟩ <;> intro hc <;> simp at hc
      | V id a b sr =>
        rw [Lettered, hh] at hl
        obtain rfl : c = 'V' := by simpa using hl
        simp only [shown, Option.some.injEq] at hs
        refine ⟨?_, fun _ => ⟨?_, _, _, hs.symm⟩, ?_, ?_⟩ <;> try (intro hc; simp at hc; done)
        obtain ⟨v, hv⟩ := Option.isSome_iff_exists.1 (show (sr.eval none).isSome = true from hr.2)
        have := vde_found he rfl
        simp only [Elem.id] at this
        simp only [info, withCurrent, this, valueOf, hv, Option.some.injEq, Except.ok.injEq] at hinfo
        rw [← hinfo]
      | I id a b sr =>
        rw [Lettered, hh] at hl
        obtain rfl : c = 'I' := by simpa using hl
        simp only [shown, Option.some.injEq] at hs
        refine ⟨?_, ?_, fun _ => ⟨?_, _, _, hs.symm⟩, ?_⟩ <;> try (intro hc; simp at hc; done)
        obtain ⟨v, hv⟩ := Option.isSome_iff_exists.1 (show (sr.eval none).isSome = true from hr.2)
        simp only [info, valueOf, hv, Option.some.injEq, Except.ok.injEq] at hinfo
        rw [← hinfo]
      | NL id a b se ports op =>
        rw [Lettered, hh] at hl
        obtain rfl : c = 'D' := by simpa using hl
        obtain rfl : ports = [(a, b)] := hr.2
        simp only [shown, Option.some.injEq] at hs
        refine ⟨?_, ?_, ?_, fun _ =>
          ⟨⟨"gm [A/V]" :: (tail id).map Prod.fst, ?_⟩, _, _, _, hs.symm⟩⟩ <;> try (intro hc; simp at hc; done)
        simp only [info, devInfo, List.map_cons, List.map_nil, Option.some.injEq, Except.ok.injEq] at hinfo
        rw [← hinfo]
        rfl
      | C id a b v ic =>
        rw [Lettered, hh] at hl
        obtain rfl : c = 'C' := by simpa using hl
        refine ⟨?_, ?_, ?_, ?_⟩ <;> intro hc <;> simp at hc
      | L id a b v ic cc =>
        rw [Lettered, hh] at hl
        obtain rfl : c = 'L' := by simpa using hl
        refine ⟨?_, ?_, ?_, ?_⟩ <;> intro hc <;> simp at hc
      | _ => simp [info] at hinfo

theorem column_power (law : String → Devices.Law K) (tail : String → List (String × K)) {circ : List (Elem K)} {nv : Nat}
    (hnv : 0 < nv) {x : Vec K} (h0 : x 0 = 0) (hr : ∀ e ∈ circ, Ready e) (hl : ∀ e ∈ circ, Lettered e) {t : Tables K}
    (ht : opInfo (fun id => devInfo (law id) (tail id)) circ (nv - 1) (fun i => x (i + 1)) = .ok t) {c : Char}
    (hc : c = 'R' ∨ c = 'V' ∨ c = 'I' ∨ c = 'D') :
    column t c = (circ.map fun e => if (upper e.id).head? = some c then power law circ nv x e else 0).sum := by
  refine column_sum ht (by rcases hc with rfl | rfl | rfl | rfl <;> decide) _ ?_ ?_
  · intro e0 he0 i0 hu0 e he i hu
    obtain ⟨-, a0⟩ := under_letter law tail hnv h0 he0 (hr e0 he0) (hl e0 he0) hu0
    obtain ⟨hh, a1⟩ := under_letter law tail hnv h0 he (hr e he) (hl e he) hu
    rw [if_pos hh]
    rcases hc with rfl | rfl | rfl | rfl
    · obtain ⟨hk, -⟩ := a0.1 rfl
      obtain ⟨-, u, v, w, hv⟩ := a1.1 rfl
      rw [hk, hv]
      simp [cell, dget]
    · obtain ⟨hk, -⟩ := a0.2.1 rfl
      obtain ⟨-, u, v, hv⟩ := a1.2.1 rfl
      rw [hk, hv]
      simp [cell, dget]
    · obtain ⟨hk, -⟩ := a0.2.2.1 rfl
      obtain ⟨-, u, v, hv⟩ := a1.2.2.1 rfl
      rw [hk, hv]
      simp [cell, dget]
    · obtain ⟨⟨r0, hk⟩, -⟩ := a0.2.2.2 rfl
      obtain ⟨-, u, v, r, hv⟩ := a1.2.2.2 rfl
      rw [hk, hv]
      simp [cell, dget]
  · intro e he hu
    split_ifs with hh
    · unfold under at hu
      have hs := info_shown law tail hnv h0 he (hr e he)
      revert hs hu
      cases info (fun id => devInfo (law id) (tail id)) circ (nv - 1) (fun i => x (i + 1)) e with
      | none => intro _ hs; cases e <;> simp_all [shown, power]
      | some q =>
        cases q with
        | error y => intro _ hs; exact hs.elim
        | ok i => intro hu; simp [hh] at hu
    · rfl

/-- C147: the columns `P [W]` of an operating point add up to zero, but for what the conductances `g` take with which the
nodes are loaded. -/
theorem C147_balance {m nv : Nat} {circ : List (Elem K)} {s : Sys K} {g : K} (law : String → Devices.Law K)
    (tail : String → List (String × K)) (hnv : 0 < nv) (he : ∀ e ∈ circ, NodesLt nv e) (hp : ∀ e ∈ circ, Devices.Part e)
    (ha : ∀ e ∈ circ, Devices.Apart e) (hu : Mna.UniqueVde circ) (hf : ∀ e ∈ circ, Fixed e) (hr : ∀ e ∈ circ, Ready e)
    (hl : ∀ e ∈ circ, Lettered e) (h : generate circ nv = .ok s) (hm : s.size = m + 1)
    {y : Fin m → K} (hy : Devices.IsPoint nv g law circ s y) :
    ∃ t, opInfo (fun id => devInfo (law id) (tail id)) circ (nv - 1) (fun i => Rlc.ext y (i + 1)) = .ok t ∧
      tablePower t + g * ∑ r ∈ Finset.range nv, Rlc.ext y r * Rlc.ext y r = 0 := by
  obtain ⟨t, ht, -⟩ := C147_values law tail hnv (x := Rlc.ext y) rfl hr
  refine ⟨t, ht, ?_⟩
  rw [← point_power hnv he hp ha hu hf h hm hy]
  congr 1
  have col := fun c hc => column_power law tail hnv (x := Rlc.ext y) rfl hr hl ht (c := c) hc
  rw [tablePower, col 'R' (by simp), col 'V' (by simp), col 'I' (by simp), col 'D' (by simp)]
  simp only [← List.sum_map_add]
  congr 1
  refine List.map_congr_left fun e hin => ?_
  have hle := hl e hin
  cases e <;> simp only [Lettered] at hle <;> simp [hle, power]

end Balance

/-! ### Examples -/

/-- a source, a resistor and a device with `i = 2 v ^ 2` -/
def lampCirc : List (Elem ℚ) :=
  [.V "V1" 1 0 ⟨some 1, none, false, none⟩, .R "R1" 1 2 1, .NL "D1" 2 0 none [(2, 0)] [(2, 0)], .C "c1" 2 0 4 none]

def lampLaw : String → Devices.Law ℚ := fun _ => ⟨fun v => 2 * v ^ 2, fun v => 4 * v⟩

def lampTail : String → List (String × ℚ) := fun _ => [("T [K]", 300)]

/-- its operating point -/
def lampX : Fin 3 → ℚ := ![1, 1 / 2, -1 / 2]

def entries {α : Type} (t : Except Err (Tables α)) (c : Char) : Option (List String × List (Row α)) :=
  match t with
  | .ok t => match dget t.info [c], dget t.keys [c] with
    | some (.group rows), some k => some (k, rows)
    | _, _ => none
  | .error _ => none

example : (∀ e ∈ lampCirc, NodesLt 3 e) ∧ (∀ e ∈ lampCirc, Devices.Part e) ∧ (∀ e ∈ lampCirc, Devices.Apart e) ∧
    Mna.UniqueVde lampCirc ∧ (∀ e ∈ lampCirc, Fixed e) ∧ (∀ e ∈ lampCirc, Ready e) ∧ (∀ e ∈ lampCirc, Lettered e) := by
  refine ⟨?_, ?_, ?_, by unfold Mna.UniqueVde; decide +kernel, ?_, ?_, ?_⟩ <;>
    simp only [lampCirc, List.forall_mem_cons, List.not_mem_nil, false_imp_iff, implies_true, and_true, NodesLt,
      Devices.Part, Recip.TwoPole, Elem.nonlinear, Devices.Apart, Fixed, Ready, Lettered, Elem.id] <;>
    decide +kernel

example : generate lampCirc 3 = .ok (Bound.sysOf lampCirc 3) ∧ (Bound.sysOf lampCirc 3).size = 3 + 1 ∧
    Devices.IsPoint 3 0 lampLaw lampCirc (Bound.sysOf lampCirc 3) lampX :=
  ⟨rfl, by decide +kernel, by unfold Devices.IsPoint; decide +kernel⟩

example : (fun t => [entries t 'V', entries t 'R', entries t 'D', entries t 'C', entries t 'I'])
      (opInfo (fun id => devInfo (lampLaw id) (lampTail id)) lampCirc 2 fun i => Rlc.ext lampX (i + 1)) =
    [some (["V(n1,n2) [V]", "I(n1->n2) [A]", "P [W]"], [("V1".toList, [1, -1 / 2, -1 / 2])]),
     some (["R [Ω]", "V(n1,n2) [V]", "I(n1->n2) [A]", "P [W]"], [("R1".toList, [1, 1 / 2, 1 / 2, 1 / 4])]),
     some (["V(n1-n2) [V]", "I(n1-n2) [A]", "P [W]", "gm [A/V]", "T [K]"], [("D1".toList, [1 / 2, 1 / 2, 1 / 4, 2, 300])]),
     some (["V(n1-n2) [V]", "Q [C]", "E [J]"], [("C1".toList, [1 / 2, 2, 1 / 2])]), none] := by
  decide +kernel

/-- the power of a table that may have failed -/
def powerOf (t : Except Err (Tables ℚ)) : Option ℚ :=
  match t with
  | .ok t => some (tablePower t)
  | .error _ => none

/-- a load driven by a controlled source -/
def driven : List (Elem ℚ) :=
  [.V "V1" 1 0 ⟨some 1, none, false, none⟩, .E "E1" 2 0 1 0 2, .R "R1" 2 0 1]

/-- C147, disagreement: controlled sources have no table. The solution is exact and the columns `P [W]` add up to 4. -/
theorem C147_controlled_refuted : ∃ x : Fin 4 → ℚ, generate driven 3 = .ok (Bound.sysOf driven 3) ∧
    Devices.IsPoint 3 0 lampLaw driven (Bound.sysOf driven 3) x ∧
    powerOf (opInfo (fun id => devInfo (lampLaw id) []) driven 2 fun i => Rlc.ext x (i + 1)) = some 4 :=
  ⟨![1, 2, 0, -2], rfl, by unfold Devices.IsPoint; decide +kernel, by decide +kernel⟩

/-- a resistor named like a voltage source -/
def misnamed : List (Elem ℚ) := [.V "V1" 1 0 ⟨some 1, none, false, none⟩, .R "V2" 1 0 2]

/-- C147, disagreement: `add_resistor` takes any name, and the table is chosen by its first letter. The row of this resistor
has one number more than the head of the table, and the column `P [W]` shows its current. -/
theorem C147_letter_refuted : ∃ x : Fin 2 → ℚ, generate misnamed 2 = .ok (Bound.sysOf misnamed 2) ∧
    Devices.IsPoint 2 0 lampLaw misnamed (Bound.sysOf misnamed 2) x ∧
    entries (opInfo (fun id => devInfo (lampLaw id) []) misnamed 1 fun i => Rlc.ext x (i + 1)) 'V' =
      some (["V(n1,n2) [V]", "I(n1->n2) [A]", "P [W]"],
        [("V1".toList, [1, -1 / 2, -1 / 2]), ("V2".toList, [2, 1, 1 / 2, 1 / 2])]) :=
  ⟨![1, -1 / 2], rfl, by unfold Devices.IsPoint; decide +kernel, by decide +kernel⟩

end Verif.OpInfo
