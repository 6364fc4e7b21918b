import Verif.Proof.Symbolic
import Mathlib.Tactic.NormNum
import Mathlib.Tactic.Linarith
import Mathlib.Tactic.Positivity
import Mathlib.Tactic.LinearCombination

/-!
C61: the symbolic equations are the numeric equations with symbols in place of numbers.
C110: the unknowns are symbols of their own.
C111: substitutions of part ids.
C112: transfer functions are small-signal responses.
-/

namespace Verif.Symbolic
open Verif.Circuit Verif.Mna Verif.Dyn

variable {α : Type} [Field α]

/-- C61: for a valuation of the symbols by the values of the elements, the symbolic matrix is
the numeric MNA matrix plus `s` times the matrix of the dynamic elements (without the
parasitic `cmin`, which the symbolic analysis does not add) and the symbolic vector is the
numeric one, in any formulation (resistances or conductances), with any substitutions
compatible with the values. Missing: elements with `is_symbolic = False` of type
`GISource`, `Inductor`, `InductorCoupling` (see the refutations), time-dependent sources
(whose DC value is in the symbolic vector only), non-linear devices. -/
theorem C61_symbolic_is_numeric_partial {c : Cfg α} {circ : List (Elem α)} {nv S : Nat}
    {s : Sys α} {D : Mat α} (hac : c.ac = true)
    (hn : ∀ e ∈ circ, NodesLt nv e) (hu : UniqueVde circ) (hg : Inverse c circ)
    (hf : ∀ e ∈ circ, Fit c e)
    (h : generate circ nv = .ok s) (hD : generateD circ nv S 0 = .ok D) :
    ∃ t, symGenerate c circ nv = .ok t ∧ t.size = s.size ∧ t.N = s.N ∧
      ∀ i j, t.M i j = s.M i j + c.s * D i j := by
  have hcoup : ∀ id n1 n2 v ic coup, Elem.L id n1 n2 v ic coup ∈ circ →
      ∃ row D D', loop (couplings circ nv row id) D coup = .ok D' := by
    intro id n1 n2 v ic coup hm
    simp only [generateD] at hD
    cases hl : loop (dStep circ nv) ⟨fun _ _ => 0, 0⟩ circ with
    | error => rw [hl] at hD; simp at hD
    | ok s0 =>
      obtain ⟨t, t', ht⟩ := loop_isOk_mem hl _ hm
      simp only [dStep] at ht
      cases hc : loop (couplings circ nv (nv + t.iEq) id)
          (t.D.put (nv + t.iEq) (nv + t.iEq) (-1 * v)) coup with
      | error => rw [hc] at ht; simp at ht
      | ok D' => exact ⟨_, _, _, hc⟩
  obtain ⟨t, ht, hr⟩ := generate_rel hn hu hg hf (fun _ => hcoup) h
  refine ⟨t, ht, hr.size, hr.N, fun i j => ?_⟩
  rw [hr.M, generateD_entries hn hD]
  simp [Cfg.sig, hac]

/-- C61, DC analysis: the symbolic system is the numeric one. -/
theorem C61_dc {c : Cfg α} {circ : List (Elem α)} {nv : Nat} {s : Sys α} (hac : c.ac = false)
    (hn : ∀ e ∈ circ, NodesLt nv e) (hu : UniqueVde circ) (hg : Inverse c circ)
    (hf : ∀ e ∈ circ, Fit c e) (h : generate circ nv = .ok s) :
    ∃ t, symGenerate c circ nv = .ok t ∧ t.size = s.size ∧ t.N = s.N ∧ t.M = s.M := by
  obtain ⟨t, ht, hr⟩ := generate_rel hn hu hg hf (fun h => by simp [hac] at h) h
  refine ⟨t, ht, hr.size, hr.N, ?_⟩
  funext i j
  rw [hr.M]; simp [Cfg.sig, hac]

/-- an RLC circuit with coupled inductors and all kinds of sources -/
def symDemo : List (Elem ℚ) :=
  [.V "V1" 1 0 { dc := some 5 }, .R "R1" 1 2 2, .C "C1" 2 0 3 none,
   .L "L1" 2 0 4 none [⟨"K1", "L1", "L2", 1/2, 1⟩],
   .L "L2" 3 0 1 none [⟨"K1", "L1", "L2", 1/2, 1⟩], .K ⟨"K1", "L1", "L2", 1/2, 1⟩,
   .G "G1" 3 0 1 2 7, .E "E1" 4 0 2 3 (-1), .H "H1" 5 4 "V1" 6, .F "F1" 5 0 "L1" 8,
   .I "I1" 4 5 { dc := some 9 }]

/-- the values of the elements of `symDemo` -/
def symDemoVal : Sym → ℚ := fun x =>
  if x.name = "V1".toList then 5 else if x.name = "R1".toList then 2
  else if x.name = "C1".toList then 3 else if x.name = "L1".toList then 4
  else if x.name = "K1".toList then 1 else if x.name = "L2".toList then 1
  else if x.name = "G1".toList then 7 else if x.name = "E1".toList then -1
  else if x.name = "H1".toList then 6 else if x.name = "F1".toList then 8
  else if x.name = "I1".toList then 9
  else if x.name = "GXXX1".toList then 1/2 else 0

def symDemoCfg : Cfg ℚ := { ρ := symDemoVal, s := 10, gs := true }

example : (∀ e ∈ symDemo, NodesLt 6 e) ∧ UniqueVde symDemo ∧ Inverse symDemoCfg symDemo := by
  refine ⟨?_, ?_, ?_⟩
  · simp [symDemo, NodesLt]
  · unfold UniqueVde; decide +kernel
  · unfold Inverse; decide +kernel

example : ∀ e ∈ symDemo, Fit symDemoCfg e := by
  have h : symDemoCfg.isSym = fun _ => true := rfl
  intro e he
  simp only [symDemo, List.mem_cons, List.not_mem_nil, or_false] at he
  rcases he with rfl | rfl | rfl | rfl | rfl | rfl | rfl | rfl | rfl | rfl | rfl
  · refine ⟨rfl, fun v hv _ => ?_⟩
    obtain rfl : (5 : ℚ) = v := by simpa using hv
    decide +kernel
  · intro _; decide +kernel
  · intro _ _; decide +kernel
  · intro _; exact ⟨rfl, by decide +kernel, by decide +kernel⟩
  · intro _; exact ⟨rfl, by decide +kernel, by decide +kernel⟩
  · trivial
  · exact ⟨rfl, by decide +kernel⟩
  · intro _; decide +kernel
  · intro _; decide +kernel
  · intro _; decide +kernel
  · refine ⟨rfl, fun v hv _ => ?_⟩
    obtain rfl : (9 : ℚ) = v := by simpa using hv
    decide +kernel

def nullSys : Sys ℚ := ⟨0, fun _ _ => 0, fun _ => 0⟩

example : (okOr nullSys (generate symDemo 6)).size = 11 ∧
    (okOr nullSys (symGenerate symDemoCfg symDemo 6)).M 7 8 = -10 ∧
    (okOr nullSys (symGenerate symDemoCfg symDemo 6)).M 2 2 = 1/2 + 10 * 3 := by
  decide +kernel

/-- two inductors of 4 H and 1 H with a coupling coefficient 1/2, hence `M = 1` -/
def coupledDemo : List (Elem ℚ) :=
  [.L "L1" 1 0 4 none [⟨"K1", "L1", "L2", 1/2, 1⟩],
   .L "L2" 2 0 1 none [⟨"K1", "L1", "L2", 1/2, 1⟩], .K ⟨"K1", "L1", "L2", 1/2, 1⟩]

/-- C61 refuted for couplings with `is_symbolic = False`: the coupling coefficient `K` is
used where the mutual inductance is needed. -/
theorem C61_numeric_coupling_refuted :
    let c : Cfg ℚ := { ρ := fun x => if x.name = "L1".toList then 4 else 1, s := 1,
                       isSym := fun i => i != "K1" }
    let t := okOr nullSys (symGenerate c coupledDemo 3)
    let s := okOr nullSys (generate coupledDemo 3)
    let D := okOr (fun _ _ => 0) (generateD coupledDemo 3 5 0)
    t.size = 5 ∧ t.M 3 3 = s.M 3 3 + c.s * D 3 3 ∧ t.M 3 4 ≠ s.M 3 4 + c.s * D 3 4 := by
  decide +kernel

/-- C61 refuted for voltage-controlled current sources with `is_symbolic = False`: the
numeric assembler accepts the circuit, the symbolic one raises `AttributeError`. -/
theorem C61_numeric_vccs_refuted (c : Cfg α) (id : String) (n1 n2 sn1 sn2 nv : Nat) (a : α)
    (h : c.isSym id = false) :
    (∃ s, generate [.G id n1 n2 sn1 sn2 a] nv = .ok s) ∧
    symGenerate c [.G id n1 n2 sn1 sn2 a] nv = .error .attr := by
  refine ⟨⟨_, rfl⟩, ?_⟩
  simp [symGenerate, loop, symStamp1, Cfg.param, h]

/-- C61 refuted for inductors with `is_symbolic = False` in an AC analysis. -/
theorem C61_numeric_inductor_refuted (c : Cfg α) (id : String) (n1 n2 nv : Nat) (v : α)
    (hac : c.ac = true) (h : c.isSym id = false) :
    (∃ s, generate [.L id n1 n2 v none []] nv = .ok s) ∧
    (∃ D, generateD [.L id n1 n2 v none []] nv (nv + 1) 0 = .ok D) ∧
    symGenerate c [.L id n1 n2 v none []] nv = .error .attr := by
  refine ⟨⟨_, rfl⟩, ⟨_, rfl⟩, ?_⟩
  simp [symGenerate, loop, symStamp1, symStamp2, Cfg.param, h, hac]

/-! ### C110 -/

/-- the symbols that the entries due to an element contain -/
def usedSyms (c : Cfg α) : Elem α → List Sym
  | .R id .. => if c.gs then [condSym (c.subst (factory id.toList true true))]
      else [c.subst (factory id.toList true true)]
  | .C id .. => [c.subst (factory id.toList true true)]
  | .L id _ _ _ _ coup => c.subst (factory id.toList true true) ::
      coup.map (fun cd => c.subst (factory cd.id.toList true true))
  | .V id .. | .I id .. => [c.subst (factory id.toList false false)]
  | .E id .. | .F id .. | .G id .. | .H id .. => [c.subst (factory id.toList true false)]
  | .K _ | .NL .. => []

omit [Field α] in
theorem param_congr {c : Cfg α} {ρ : Sym → α} {x : Sym} (id : String) (n : Except Err α)
    (h : ρ (c.subst x) = c.ρ (c.subst x)) :
    ({ c with ρ := ρ } : Cfg α).param id x n = c.param id x n := by
  unfold Cfg.param
  have : ({ c with ρ := ρ } : Cfg α).subst x = c.subst x := rfl
  simp only [this, h]

theorem loop_congr {σ ε ι : Type} {f g : σ → ι → Except ε σ} {l : List ι} (s : σ)
    (h : ∀ a ∈ l, ∀ s, f s a = g s a) : loop f s l = loop g s l := by
  induction l generalizing s with
  | nil => rfl
  | cons e r ih =>
    simp only [loop, h e (List.mem_cons_self ..)]
    cases g s e with
    | error => rfl
    | ok s' => exact ih s' (fun a ha => h a (List.mem_cons_of_mem _ ha))

/-- The matrices depend on the valuation of the symbols in them only. -/
theorem symGenerate_congr {c : Cfg α} {ρ : Sym → α} {circ : List (Elem α)} {nv : Nat}
    (h : ∀ e ∈ circ, ∀ x ∈ usedSyms c e, ρ x = c.ρ x) :
    symGenerate { c with ρ := ρ } circ nv = symGenerate c circ nv := by
  have h1 : ∀ t, loop (symStamp1 { c with ρ := ρ }) t circ = loop (symStamp1 c) t circ := by
    intro t
    refine loop_congr t (fun e he t => ?_)
    have hx := h e he
    cases e with
    | R id n1 n2 r =>
      have : ({ c with ρ := ρ } : Cfg α).conductance id r = c.conductance id r := by
        unfold Cfg.conductance
        simp only [usedSyms] at hx
        by_cases hgs : c.gs = true
        · simp only [hgs, if_true, List.mem_singleton, forall_eq] at hx
          simp only [Cfg.subst] at hx ⊢
          simp only [hgs, if_true, hx]
        · simp only [hgs, if_false, List.mem_singleton, forall_eq, Bool.false_eq_true] at hx
          simp only [Cfg.subst] at hx ⊢
          simp only [hgs, if_false, hx, Bool.false_eq_true]
      simp only [symStamp1, this]
    | C id n1 n2 v ic =>
      simp only [symStamp1, param_congr (x := factory id.toList true true) id _ (hx _ (by simp [usedSyms]))]
    | G id n1 n2 a b v => simp only [symStamp1, param_congr (x := factory id.toList true false) id _ (hx _ (by simp [usedSyms]))]
    | I id n1 n2 src => simp only [symStamp1, param_congr (x := factory id.toList false false) id _ (hx _ (by simp [usedSyms]))]
    | _ => rfl
  have h2 : ∀ t, loop (symStamp2 { c with ρ := ρ } circ nv) t circ =
      loop (symStamp2 c circ nv) t circ := by
    intro t
    refine loop_congr t (fun e he t => ?_)
    have hx := h e he
    cases e with
    | V id n1 n2 src => simp only [symStamp2, param_congr (x := factory id.toList false false) id _ (hx _ (by simp [usedSyms]))]
    | E id n1 n2 a b v => simp only [symStamp2, param_congr (x := factory id.toList true false) id _ (hx _ (by simp [usedSyms]))]
    | H id n1 n2 src v => simp only [symStamp2, param_congr (x := factory id.toList true false) id _ (hx _ (by simp [usedSyms]))]
    | L id n1 n2 v ic coup => simp only [symStamp2, param_congr (x := factory id.toList true true) id _ (hx _ (by simp [usedSyms]))]
    | _ => rfl
  have h3 : ∀ t, loop (symStamp3 { c with ρ := ρ } circ nv) t circ =
      loop (symStamp3 c circ nv) t circ := by
    intro t
    refine loop_congr t (fun e he t => ?_)
    have hx := h e he
    cases e with
    | F id n1 n2 src v => simp only [symStamp3, param_congr (x := factory id.toList true false) id _ (hx _ (by simp [usedSyms]))]
    | L id n1 n2 v ic coup =>
      have : ∀ this M, loop (symCoupling { c with ρ := ρ } circ (nv + this) nv id) M coup =
          loop (symCoupling c circ (nv + this) nv id) M coup := by
        intro this M
        refine loop_congr M (fun cd hcd M => ?_)
        have hy := hx (c.subst (factory cd.id.toList true true)) (by
          simp only [usedSyms, List.mem_cons, List.mem_map]
          exact .inr ⟨cd, hcd, rfl⟩)
        unfold symCoupling
        rw [param_congr cd.id _ hy]
      simp only [symStamp3, this]
    | _ => rfl
  simp only [symGenerate, h1]
  cases loop (symStamp1 c) ⟨nv, fun _ _ => 0, fun _ => 0⟩ circ with
  | error => rfl
  | ok s1 =>
    simp only [h2]
    cases loop (symStamp2 c circ nv) s1 circ with
    | error => rfl
    | ok s2 => simp only [h3]

/-- valuation of the unknowns by `x`, of the other symbols by `ρ` -/
def assign (ρ : Sym → α) (u : List Sym) (x : Nat → α) : Sym → α :=
  fun y => if y ∈ u then x (u.idxOf y) else ρ y

/-- C110: if the unknowns have names of their own (no two equal, none the symbol of an
element), any values of the unknowns can be combined with any values of the elements:
the matrices are those of the element values, and the equations are the linear equations
with these matrices in the values of the unknowns. Missing: distinctness of the names is
not guaranteed, see `C110_shared_symbol_refuted`. -/
theorem C110_unknowns_are_free_partial {c : Cfg α} {circ : List (Elem α)} {nv : Nat} {t : Sys α}
    {nodes : List (List Char)} (hnd : (unknowns circ nodes).Nodup)
    (hdis : ∀ e ∈ circ, ∀ y ∈ usedSyms c e, y ∉ unknowns circ nodes)
    (h : symGenerate c circ nv = .ok t) (x : Nat → α) :
    let c' : Cfg α := { c with ρ := assign c.ρ (unknowns circ nodes) x }
    symGenerate c' circ nv = .ok t ∧
    ∀ r, equation c' t (unknowns circ nodes) r =
      ((List.range (unknowns circ nodes).length).map (fun i => t.M r (i + 1) * x i)).sum + t.N r := by
  intro c'
  refine ⟨?_, fun r => ?_⟩
  · rw [← h]
    refine symGenerate_congr (fun e he y hy => ?_)
    unfold assign; rw [if_neg (hdis e he y hy)]
  · unfold equation
    congr 2
    refine List.ext_getElem (by simp) (fun i h1 h2 => ?_)
    have hi : i < (unknowns circ nodes).length := by simpa using h2
    simp only [List.getElem_map, List.getElem_zipIdx, List.getElem_range, Nat.zero_add, c', assign]
    rw [if_pos (List.getElem_mem hi), List.Nodup.idxOf_getElem hnd i hi]

/-- a divider with the names of the nodes starting with a letter -/
example : let circ : List (Elem ℚ) := [.V "V1" 1 0 {}, .R "R1" 1 2 1, .R "R2" 2 0 1]
    let c : Cfg ℚ := { ρ := fun _ => 1, s := 0 }
    (unknowns circ ["in".toList, "out".toList]).Nodup ∧
    ∀ e ∈ circ, ∀ y ∈ usedSyms c e, y ∉ unknowns circ ["in".toList, "out".toList] := by
  decide +kernel

/-- a divider: `V1` drives the node called `2`, the node called `1` is the output -/
def dividerDemo : List (Elem ℚ) := [.V "V1" 1 0 {}, .R "R1" 1 2 1, .R "R2" 2 0 1]

/-- C110 refuted: the voltage of the node `1` and the value of the source `V1` are the same
symbol. For the divider of `dividerDemo` the equations then have no solution with a
non-zero source voltage at all: the solver reports 0 for every voltage, instead of
`V1*R2/(R1 + R2)` at the output. -/
theorem C110_shared_symbol_refuted (c : Cfg ℚ) (hc : c.subs = fun _ => none)
    (hsym : c.isSym = fun _ => true) (hgs : c.gs = false)
    (h1 : 0 < c.ρ (factory "R1".toList true true)) (h2 : 0 < c.ρ (factory "R2".toList true true)) :
    ∃ t, symGenerate c dividerDemo 3 = .ok t ∧
      unknowns dividerDemo ["2".toList, "1".toList] =
        [⟨"V2".toList, .none⟩, ⟨"V1".toList, .none⟩, ⟨"I[V1]".toList, .none⟩] ∧
      ((∀ r ∈ [1, 2, 3], equation c t (unknowns dividerDemo ["2".toList, "1".toList]) r = 0) →
        c.ρ (factory "V1".toList false false) = 0) := by
  have hu : unknowns dividerDemo ["2".toList, "1".toList] =
      [⟨"V2".toList, .none⟩, ⟨"V1".toList, .none⟩, ⟨"I[V1]".toList, .none⟩] := by decide +kernel
  have hsub : ∀ x, c.subst x = x := fun x => by unfold Cfg.subst; rw [hc]; rfl
  set r1 := c.ρ (factory "R1".toList true true)
  set r2 := c.ρ (factory "R2".toList true true)
  have hv : factory "V1".toList false false = ⟨"V1".toList, .none⟩ := by decide +kernel
  have hp : c.param "V1" (factory "V1".toList false false) (.error .type) =
      .ok (c.ρ (factory "V1".toList false false)) :=
    param_sym (by rw [hsym]) (by rw [hsub])
  have hc1 : c.conductance "R1" 1 = 1 / r1 := by simp [Cfg.conductance, hsym, hgs, hsub, r1]
  have hc2 : c.conductance "R2" 1 = 1 / r2 := by simp [Cfg.conductance, hsym, hgs, hsub, r2]
  have key : ∃ t, symGenerate c dividerDemo 3 = .ok t ∧ t.M 2 1 = -(1 / r1) ∧
      t.M 2 2 = 1 / r1 + 1 / r2 ∧ t.M 2 3 = 0 ∧ t.N 2 = 0 ∧ t.M 3 1 = 1 ∧ t.M 3 2 = 0 ∧
      t.M 3 3 = 0 ∧ t.N 3 = -c.ρ (factory "V1".toList false false) := by
    simp only [symGenerate, dividerDemo, loop, symStamp1, symStamp2, symStamp3, dcValue, hp, hc1, hc2]
    refine ⟨_, rfl, ?_⟩
    simp [Mat.put, Mat.add, Vec.put]
  obtain ⟨t, ht, m21, m22, m23, n2, m31, m32, m33, n3⟩ := key
  refine ⟨t, ht, hu, fun h => ?_⟩
  rw [hu] at h
  have e2 := h 2 (by simp)
  have e3 := h 3 (by simp)
  simp only [equation, List.zipIdx, List.map_cons, List.map_nil, List.sum_cons, List.sum_nil,
    m21, m22, m23, n2, m31, m32, m33, n3, hv] at e2 e3
  rw [hv]
  set v1 := c.ρ ⟨"V1".toList, .none⟩
  set v2 := c.ρ ⟨"V2".toList, .none⟩
  have hv2 : v2 = v1 := by linarith
  rw [hv2] at e2
  have : 1 / r2 * v1 = 0 := by linarith
  rcases mul_eq_zero.mp this with h0 | h0
  · exact absurd h0 (by positivity)
  · exact h0

/-! ### C111 -/

theorem toUpper_toUpper (a : Char) : a.toUpper.toUpper = a.toUpper := by
  have key : ∀ n : Fin 128, ((Char.ofNat n).toUpper).toUpper = (Char.ofNat n).toUpper := by
    decide +kernel
  by_cases h : a.toNat < 128
  · have := key ⟨a.toNat, h⟩
    simpa using this
  · have : ¬ (97 ≤ a.val ∧ a.val ≤ 122) := by
      intro hh
      have := hh.2
      rw [UInt32.le_iff_toNat_le] at this
      exact h (by
        have e : a.val.toNat = a.toNat := rfl
        have e2 : (122 : UInt32).toNat = 122 := rfl
        omega)
    have e : a.toUpper = a := by
      unfold Char.toUpper
      split
      · rename_i h'
        exact absurd h' (by simpa using this)
      · rfl
    rw [e, e]

/-- the key of an item of the dictionary -/
theorem parseSub_key {gs : Bool} {v1 v2 : List Char} {p : Sym × Sym}
    (h : parseSub gs v1 v2 = .ok p) :
    p.1.assume ≠ .none ∧
    (p.1.assume = .real → p.1.name.head? ≠ some 'G') ∧
    (p.1.assume = .positive → p.1.name.head? ≠ some 'K') ∧
    (gs = true → p.1.name.head? ≠ some 'R') := by
  cases v1 with
  | nil => cases v2 <;> simp [parseSub] at h
  | cons a r1 =>
    cases v2 with
    | nil => simp [parseSub] at h
    | cons b r2 =>
      simp only [parseSub, Except.ok.injEq] at h
      subst h
      by_cases hg : (a.toUpper == 'R' && gs) = true
      · simp only [hg, if_true]
        have hp : posLetter "Gxxx".toList = true := by decide +kernel
        have hn : (factory ("Gxxx".toList ++ r1) true (posLetter "Gxxx".toList)).name.head? =
            some 'G' := by simp [factory]
        rw [hn, hp]
        simp [factory]
      · simp only [hg]
        have hn : (factory ([a.toUpper] ++ r1) true (posLetter [a.toUpper])).name.head? =
            some a.toUpper := by simp [factory, toUpper_toUpper]
        rw [if_neg (by simp), hn]
        refine ⟨?_, ?_, ?_, ?_⟩
        · simp only [factory]; split_ifs <;> simp
        · intro hr hG
          have : a.toUpper = 'G' := by simpa using hG
          rw [this] at hr
          have hp : posLetter ['G'] = true := by decide +kernel
          simp [factory, hp] at hr
        · intro hr hK
          have : a.toUpper = 'K' := by simpa using hK
          rw [this] at hr
          revert hr
          have : posLetter ['K'] = false := by decide +kernel
          simp [factory, this]
        · intro hgs hR
          have : a.toUpper = 'R' := by simpa using hR
          simp [this, hgs] at hg

theorem parseSubs_key {gs : Bool} {items : List (List Char × List Char)} {d d' : Sym → Option Sym}
    (h : parseSubs gs items d = .ok d') {x : Sym} (hx : d x = none)
    (hk : ∀ v1 v2 p, parseSub gs v1 v2 = .ok p → p.1 ≠ x) : d' x = none := by
  induction items generalizing d with
  | nil => simp only [parseSubs, Except.ok.injEq] at h; rw [← h, hx]
  | cons i r ih =>
    obtain ⟨v1, v2⟩ := i
    simp only [parseSubs] at h
    cases hp : parseSub gs v1 v2 with
    | error => rw [hp] at h; simp at h
    | ok p =>
      rw [hp] at h
      refine ih h ?_
      unfold update
      rw [if_neg (fun e => hk v1 v2 p hp e.symm), hx]

/-- no substitution at all -/
def noSubs : Sym → Option Sym := fun _ => none

/-- C111 refuted for independent sources: whatever dictionary is passed, their symbols are
never keys of the resulting substitutions (different assumptions), so voltage and current
sources are stamped as if no substitution had been requested. -/
theorem C111_sources_refuted (c : Cfg α) {gs : Bool} {items : List (List Char × List Char)}
    {d : Sym → Option Sym} (h : parseSubs gs items noSubs = .ok d)
    (circ : List (Elem α)) (nv : Nat) (t : Sys α) (id : String) (n1 n2 : Nat) (src : Src α) :
    symStamp1 { c with subs := d } t (.I id n1 n2 src) =
      symStamp1 { c with subs := noSubs } t (.I id n1 n2 src) ∧
    symStamp2 { c with subs := d } circ nv t (.V id n1 n2 src) =
      symStamp2 { c with subs := noSubs } circ nv t (.V id n1 n2 src) := by
  have hd : d (factory id.toList false false) = none :=
    parseSubs_key h rfl (fun v1 v2 p hp e => (parseSub_key hp).1 (by rw [e]; rfl))
  have : ({ c with subs := d } : Cfg α).subst (factory id.toList false false) =
      ({ c with subs := noSubs } : Cfg α).subst (factory id.toList false false) := by
    simp only [Cfg.subst, hd, noSubs]
  constructor
  · simp only [symStamp1, Cfg.param, this]
  · simp only [symStamp2, Cfg.param, this]

/-- C111 refuted for voltage-controlled current sources -/
theorem C111_vccs_refuted (c : Cfg α) {gs : Bool} {items : List (List Char × List Char)}
    {d : Sym → Option Sym} (h : parseSubs gs items noSubs = .ok d)
    (t : Sys α) (id : String) (n1 n2 sn1 sn2 : Nat) (a : α)
    (hid : (id.toList.map Char.toUpper).head? = some 'G') :
    symStamp1 { c with subs := d } t (.G id n1 n2 sn1 sn2 a) =
      symStamp1 { c with subs := noSubs } t (.G id n1 n2 sn1 sn2 a) := by
  have hd : d (factory id.toList true false) = none :=
    parseSubs_key h rfl (fun v1 v2 p hp e => (parseSub_key hp).2.1 (by rw [e]; rfl)
      (by rw [e]; exact hid))
  have : ({ c with subs := d } : Cfg α).subst (factory id.toList true false) =
      ({ c with subs := noSubs } : Cfg α).subst (factory id.toList true false) := by
    simp only [Cfg.subst, hd, noSubs]
  simp only [symStamp1, Cfg.param, this]

/-- C111 refuted for mutual inductances -/
theorem C111_coupling_refuted (c : Cfg α) {gs : Bool} {items : List (List Char × List Char)}
    {d : Sym → Option Sym} (h : parseSubs gs items noSubs = .ok d)
    (circ : List (Elem α)) (row pre : Nat) (id : String) (M : Mat α) (cd : Coupling α)
    (hid : (cd.id.toList.map Char.toUpper).head? = some 'K') :
    symCoupling { c with subs := d } circ row pre id M cd =
      symCoupling { c with subs := noSubs } circ row pre id M cd := by
  have hd : d (factory cd.id.toList true true) = none :=
    parseSubs_key h rfl (fun v1 v2 p hp e => (parseSub_key hp).2.2.1 (by rw [e]; rfl)
      (by rw [e]; exact hid))
  have : ({ c with subs := d } : Cfg α).subst (factory cd.id.toList true true) =
      ({ c with subs := noSubs } : Cfg α).subst (factory cd.id.toList true true) := by
    simp only [Cfg.subst, hd, noSubs]
  simp only [symCoupling, Cfg.param, this]

/-- C111 refuted for resistors with `symb_formulate_with_gs`: the keys are symbols of
conductances, the look-up uses the symbol of the resistance. -/
theorem C111_resistor_gs_refuted (c : Cfg α) {items : List (List Char × List Char)}
    {d : Sym → Option Sym} (h : parseSubs true items noSubs = .ok d)
    (t : Sys α) (id : String) (n1 n2 : Nat) (r : α)
    (hid : (id.toList.map Char.toUpper).head? = some 'R') :
    symStamp1 { c with subs := d } t (.R id n1 n2 r) =
      symStamp1 { c with subs := noSubs } t (.R id n1 n2 r) := by
  have hd : d (factory id.toList true true) = none :=
    parseSubs_key h rfl (fun v1 v2 p hp e => (parseSub_key hp).2.2.2 rfl (by rw [e]; exact hid))
  have : ({ c with subs := d } : Cfg α).subst (factory id.toList true true) =
      ({ c with subs := noSubs } : Cfg α).subst (factory id.toList true true) := by
    simp only [Cfg.subst, hd, noSubs]
  simp only [symStamp1, Cfg.conductance, this]

/-- a dictionary for the refutations: the substitutions do contain a key called `V1` -/
example : (parseSub false "V1".toList "V2".toList) =
    .ok (⟨"V1".toList, .real⟩, ⟨"V2".toList, .real⟩) ∧
    (parseSub false "g1".toList "g2".toList) =
    .ok (⟨"G1".toList, .positive⟩, ⟨"G2".toList, .positive⟩) := by
  decide +kernel

theorem parseSub_ok {v1 v2 : List Char} (h1 : v1 ≠ []) (h2 : v2 ≠ []) :
    parseSub false v1 v2 = .ok
      (factory v1 true (posLetter (v1.map Char.toUpper)),
       factory v2 true (posLetter (v2.map Char.toUpper))) := by
  cases v1 with
  | nil => simp at h1
  | cons a r1 =>
    cases v2 with
    | nil => simp at h2
    | cons b r2 =>
      have hp : ∀ (x : Char) (r : List Char), posLetter (x :: r) = posLetter [x] := fun _ _ => rfl
      simp [parseSub, factory, toUpper_toUpper, hp a.toUpper (r1.map Char.toUpper),
        hp b.toUpper (r2.map Char.toUpper)]

/-- Looking up the symbol of a part id: if all the items with this part id on the left (any
case) agree on the right hand side, the symbol of the latter is found, provided that the
first letters tell whether the symbol is positive. -/
theorem parseSubs_lookup {items : List (List Char × List Char)} {d d' : Sym → Option Sym}
    {v1 v2 : List Char} (pos : Bool)
    (hp1 : posLetter (v1.map Char.toUpper) = pos) (hp2 : posLetter (v2.map Char.toUpper) = pos)
    (hne : ∀ i ∈ items, i.1 ≠ [] ∧ i.2 ≠ [])
    (huniq : ∀ i ∈ items, i.1.map Char.toUpper = v1.map Char.toUpper →
      i.2.map Char.toUpper = v2.map Char.toUpper)
    (hmem : (v1, v2) ∈ items ∨ d (factory v1 true pos) = some (factory v2 true pos))
    (h : parseSubs false items d = .ok d') :
    d' (factory v1 true pos) = some (factory v2 true pos) := by
  induction items generalizing d with
  | nil =>
    simp only [parseSubs, Except.ok.injEq] at h
    subst h
    simpa using hmem
  | cons i r ih =>
    obtain ⟨w1, w2⟩ := i
    have hi := hne (w1, w2) (List.mem_cons_self ..)
    simp only [parseSubs, parseSub_ok hi.1 hi.2] at h
    refine ih (fun j hj => hne j (List.mem_cons_of_mem _ hj))
      (fun j hj => huniq j (List.mem_cons_of_mem _ hj)) ?_ h
    by_cases hw : w1.map Char.toUpper = v1.map Char.toUpper
    · have h2 := huniq (w1, w2) (List.mem_cons_self ..) hw
      right
      simp only at h2
      unfold update
      have e1 : factory v1 true pos = factory w1 true (posLetter (w1.map Char.toUpper)) := by
        simp [factory, hw, hp1]
      have e2 : factory w2 true (posLetter (w2.map Char.toUpper)) = factory v2 true pos := by
        simp [factory, h2, hp2]
      rw [if_pos e1, e2]
    · rcases hmem with hm | hm
      · rcases List.mem_cons.mp hm with heq | hm'
        · rw [Prod.mk.injEq] at heq; exact absurd (by rw [heq.1]) hw
        · exact .inl hm'
      · right
        unfold update
        rw [if_neg (fun e => hw (by simpa [factory] using (congrArg Sym.name e).symm)), hm]

/-- C111: with the default formulation, a request to use the part id `v2` in place of `v1`
makes resistors, capacitors, inductors, voltage-controlled voltage sources,
current-controlled sources called `v1` contribute exactly like elements called `v2`.
Missing: the other elements and the formulation with conductances, see the refutations. -/
theorem C111_substitution_applies_partial (c : Cfg α) {items : List (List Char × List Char)}
    {d : Sym → Option Sym} (hgs : c.gs = false) (h : parseSubs c.gs items noSubs = .ok d)
    {id1 id2 : String} (hs1 : c.isSym id1 = true) (hs2 : c.isSym id2 = true)
    (hne : ∀ i ∈ items, i.1 ≠ [] ∧ i.2 ≠ []) (hmem : (id1.toList, id2.toList) ∈ items)
    (huniq : ∀ i ∈ items, i.1.map Char.toUpper = id1.toList.map Char.toUpper →
      i.2.map Char.toUpper = id2.toList.map Char.toUpper)
    (circ : List (Elem α)) (nv : Nat) (t : Sys α) (n1 n2 m1 m2 : Nat) (v : α) (ic : Option α)
    (coup : List (Coupling α)) (src : String) :
    (posLetter (id1.toList.map Char.toUpper) = true → posLetter (id2.toList.map Char.toUpper) = true →
      symStamp1 { c with subs := d } t (.R id1 n1 n2 v) =
        symStamp1 { c with subs := noSubs } t (.R id2 n1 n2 v) ∧
      symStamp1 { c with subs := d } t (.C id1 n1 n2 v ic) =
        symStamp1 { c with subs := noSubs } t (.C id2 n1 n2 v ic) ∧
      symStamp2 { c with subs := d } circ nv t (.L id1 n1 n2 v ic coup) =
        symStamp2 { c with subs := noSubs } circ nv t (.L id2 n1 n2 v ic coup)) ∧
    (posLetter (id1.toList.map Char.toUpper) = false → posLetter (id2.toList.map Char.toUpper) = false →
      symStamp2 { c with subs := d } circ nv t (.E id1 n1 n2 m1 m2 v) =
        symStamp2 { c with subs := noSubs } circ nv t (.E id2 n1 n2 m1 m2 v) ∧
      symStamp2 { c with subs := d } circ nv t (.H id1 n1 n2 src v) =
        symStamp2 { c with subs := noSubs } circ nv t (.H id2 n1 n2 src v) ∧
      symStamp3 { c with subs := d } circ nv t (.F id1 n1 n2 src v) =
        symStamp3 { c with subs := noSubs } circ nv t (.F id2 n1 n2 src v)) := by
  have key : ∀ pos, posLetter (id1.toList.map Char.toUpper) = pos →
      posLetter (id2.toList.map Char.toUpper) = pos →
      d (factory id1.toList true pos) = some (factory id2.toList true pos) :=
    fun pos hp1 hp2 => parseSubs_lookup pos hp1 hp2 hne huniq (.inl hmem) (hgs ▸ h)
  constructor
  · intro hp1 hp2
    have hd := key true hp1 hp2
    have e : ({ c with subs := d } : Cfg α).subst (factory id1.toList true true) =
        ({ c with subs := noSubs } : Cfg α).subst (factory id2.toList true true) := by
      simp only [Cfg.subst, hd, noSubs]; rfl
    refine ⟨?_, ?_, ?_⟩
    · simp only [symStamp1, Cfg.conductance, e, hs1, hs2]
    · simp only [symStamp1, Cfg.param, e, hs1, hs2]
    · simp only [symStamp2, Cfg.param, e, hs1, hs2]
  · intro hp1 hp2
    have hd := key false hp1 hp2
    have e : ({ c with subs := d } : Cfg α).subst (factory id1.toList true false) =
        ({ c with subs := noSubs } : Cfg α).subst (factory id2.toList true false) := by
      simp only [Cfg.subst, hd, noSubs]; rfl
    refine ⟨?_, ?_, ?_⟩
    · simp only [symStamp2, Cfg.param, e, hs1, hs2]
    · simp only [symStamp2, Cfg.param, e, hs1, hs2]
    · simp only [symStamp3, Cfg.param, e, hs1, hs2]

/-- a dictionary with two items meeting the hypotheses -/
example : let items := [("R1".toList, "R2".toList), ("c1".toList, "C2".toList)]
    (parseSubs false items noSubs).isOk = true ∧ (∀ i ∈ items, i.1 ≠ [] ∧ i.2 ≠ []) ∧
    (∀ i ∈ items, i.1.map Char.toUpper = "R1".toList.map Char.toUpper →
      i.2.map Char.toUpper = "R2".toList.map Char.toUpper) ∧
    posLetter ("R1".toList.map Char.toUpper) = true ∧
    posLetter ("E1".toList.map Char.toUpper) = false := by
  refine ⟨rfl, ?_⟩
  decide +kernel

/-! ### C112 -/

/-- the circuit with the source `key` driven by a unit phasor, the other sources off -/
def unitAc (key : List Char) : Elem α → Elem α
  | .V id n1 n2 src =>
    .V id n1 n2 { src with ac := if upper id = key then some 1 else none }
  | .I id n1 n2 src =>
    .I id n1 n2 { src with ac := if upper id = key then some 1 else none }
  | e => e

/-- the valuation with the source symbol increased by `h` -/
def bump (ρ : Sym → α) (key : List Char) (h : α) : Sym → α :=
  fun x => if x = ⟨key, .none⟩ then ρ x + h else ρ x

/-- same matrix, vectors that differ by `h` times `A` -/
structure Shift (h : α) (A : Vec α) (t t' : Sys α) : Prop where
  size : t'.size = t.size
  M : t'.M = t.M
  N : ∀ a, t'.N a = t.N a + h * A a

theorem bump_real (ρ : Sym → α) (key : List Char) (h : α) (n : List Char) (p : Bool) :
    bump ρ key h (factory n true p) = ρ (factory n true p) := by
  unfold bump
  rw [if_neg]
  intro e
  have := congrArg Sym.assume e
  simp only [factory, if_true] at this
  split_ifs at this

theorem param_bump {c : Cfg α} (hc : c.subs = noSubs) (key : List Char) (h : α) (id : String)
    (n : List Char) (p : Bool) (num : Except Err α) :
    ({ c with ρ := bump c.ρ key h } : Cfg α).param id (factory n true p) num =
      c.param id (factory n true p) num := by
  refine param_congr id num ?_
  have : c.subst (factory n true p) = factory n true p := by
    unfold Cfg.subst; rw [hc]; rfl
  rw [this, bump_real]

/-- the value of a source under the two valuations -/
theorem param_src {c : Cfg α} (hc : c.subs = noSubs) (key : List Char) (h : α) {id : String}
    (hsym : upper id = key → c.isSym id = true) {num : Except Err α} {v : α}
    (hv : c.param id (factory id.toList false false) num = .ok v) :
    ({ c with ρ := bump c.ρ key h } : Cfg α).param id (factory id.toList false false) num =
      .ok (v + h * (if upper id = key then 1 else 0)) := by
  have hsub : ∀ x, c.subst x = x := fun x => by unfold Cfg.subst; rw [hc]; rfl
  have hsub' : ∀ x, ({ c with ρ := bump c.ρ key h } : Cfg α).subst x = x := hsub
  unfold Cfg.param at hv ⊢
  simp only [hsub'] 
  by_cases hk : upper id = key
  · rw [if_pos (hsym hk)] at hv ⊢
    rw [hsub, Except.ok.injEq] at hv
    have : factory id.toList false false = ⟨key, .none⟩ := by
      rw [← hk]; rfl
    rw [if_pos hk, ← hv, this]
    simp [bump]
  · rw [if_neg hk, mul_zero, add_zero]
    by_cases hs : c.isSym id = true
    · rw [if_pos hs] at hv ⊢
      rw [hsub, Except.ok.injEq] at hv
      rw [← hv]
      congr 1
      unfold bump
      rw [if_neg]
      intro e
      exact hk (congrArg Sym.name e)
    · rw [if_neg hs] at hv ⊢
      exact hv

theorem conductance_bump {c : Cfg α} (hc : c.subs = noSubs) (key : List Char) (h : α)
    (id : String) (r : α) :
    ({ c with ρ := bump c.ρ key h } : Cfg α).conductance id r = c.conductance id r := by
  have hsub : ∀ x, c.subst x = x := fun x => by unfold Cfg.subst; rw [hc]; rfl
  have hsub' : ∀ x, ({ c with ρ := bump c.ρ key h } : Cfg α).subst x = x := hsub
  unfold Cfg.conductance
  simp only [hsub, hsub', condSym, bump_real]

theorem shift1 {c : Cfg α} (hc : c.subs = noSubs) {key : List Char} {h : α} {A : Vec α}
    {t t' u : Sys α} {e : Elem α}
    (hsym : upper e.id = key → c.isSym e.id = true)
    (hs : Shift h A t t') (hu : symStamp1 c t e = .ok u) :
    ∃ u', symStamp1 { c with ρ := bump c.ρ key h } t' e = .ok u' ∧
      Shift h (nac1 A (unitAc key e)) u u' := by
  cases e with
  | R id n1 n2 r =>
    simp only [symStamp1, Except.ok.injEq] at hu; subst hu
    refine ⟨_, rfl, hs.size, ?_, hs.N⟩
    simp only [conductance_bump hc, hs.M]
  | C id n1 n2 v ic =>
    simp only [symStamp1] at hu ⊢
    rw [param_bump hc]
    by_cases hac : c.ac = true
    · rw [if_pos hac] at hu ⊢
      cases hp : c.param id (factory id.toList true true) (.ok v) with
      | error => rw [hp] at hu; simp at hu
      | ok w =>
        rw [hp] at hu; simp only [Except.ok.injEq] at hu; subst hu
        exact ⟨_, rfl, hs.size, by simp only [hs.M], hs.N⟩
    · rw [if_neg hac] at hu ⊢
      simp only [Except.ok.injEq] at hu; subst hu
      exact ⟨_, rfl, hs.size, hs.M, hs.N⟩
  | G id n1 n2 sn1 sn2 v =>
    simp only [symStamp1] at hu ⊢
    rw [param_bump hc]
    cases hp : c.param id (factory id.toList true false) (.error .attr) with
    | error => rw [hp] at hu; simp at hu
    | ok w =>
      rw [hp] at hu; simp only [Except.ok.injEq] at hu; subst hu
      exact ⟨_, rfl, hs.size, by simp only [hs.M], hs.N⟩
  | I id n1 n2 src =>
    simp only [symStamp1] at hu ⊢
    cases hp : c.param id (factory id.toList false false) (dcValue src) with
    | error => rw [hp] at hu; simp at hu
    | ok w =>
      rw [hp] at hu; simp only [Except.ok.injEq] at hu; subst hu
      rw [param_src (id := id) hc key h hsym hp]
      refine ⟨_, rfl, hs.size, hs.M, fun a => ?_⟩
      simp only [vec_add_apply, hs.N, unitAc, nac1]
      by_cases hk : upper id = key
      · simp only [hk, if_true, vec_add_apply]
        split_ifs <;> ring
      · simp only [hk, if_false]
        split_ifs <;> ring
  | _ =>
    simp only [symStamp1, Except.ok.injEq] at hu; subst hu
    exact ⟨t', rfl, hs.size, hs.M, hs.N⟩

theorem symStamp1_size {c : Cfg α} {t u : Sys α} {e : Elem α} (hu : symStamp1 c t e = .ok u) :
    u.size = t.size := by
  cases e with
  | C id n1 n2 v ic =>
    simp only [symStamp1] at hu
    by_cases hac : c.ac = true
    · rw [if_pos hac] at hu
      cases hp : c.param id (factory id.toList true true) (.ok v) with
      | error => rw [hp] at hu; simp at hu
      | ok w => rw [hp] at hu; simp only [Except.ok.injEq] at hu; rw [← hu]
    · rw [if_neg hac] at hu
      simp only [Except.ok.injEq] at hu; rw [hu]
  | G id n1 n2 sn1 sn2 v =>
    simp only [symStamp1] at hu
    cases hp : c.param id (factory id.toList true false) (.error .attr) with
    | error => rw [hp] at hu; simp at hu
    | ok w => rw [hp] at hu; simp only [Except.ok.injEq] at hu; rw [← hu]
  | I id n1 n2 src =>
    simp only [symStamp1] at hu
    cases hp : c.param id (factory id.toList false false) (dcValue src) with
    | error => rw [hp] at hu; simp at hu
    | ok w => rw [hp] at hu; simp only [Except.ok.injEq] at hu; rw [← hu]
  | _ => simp only [symStamp1, Except.ok.injEq] at hu; rw [← hu]

theorem shift2 {c : Cfg α} (hc : c.subs = noSubs) {key : List Char} {h : α} {A : Nat × Vec α}
    {circ : List (Elem α)} {nv : Nat} {t t' u : Sys α} {e : Elem α}
    (hsym : upper e.id = key → c.isSym e.id = true) (hA : A.1 = t.size)
    (hs : Shift h A.2 t t') (hz : ∀ a, t.size ≤ a → A.2 a = 0)
    (hu : symStamp2 c circ nv t e = .ok u) :
    ∃ u', symStamp2 { c with ρ := bump c.ρ key h } circ nv t' e = .ok u' ∧
      (nac2 A (unitAc key e)).1 = u.size ∧
      (∀ a, u.size ≤ a → (nac2 A (unitAc key e)).2 a = 0) ∧
      Shift h (nac2 A (unitAc key e)).2 u u' := by
  have hz' : ∀ a, t.size + 1 ≤ a → A.2 a = 0 := fun a ha => hz a (by omega)
  cases e with
  | V id n1 n2 src =>
    simp only [symStamp2] at hu ⊢
    cases hp : c.param id (factory id.toList false false) (dcValue src) with
    | error => rw [hp] at hu; simp at hu
    | ok w =>
      rw [hp] at hu; simp only [Except.ok.injEq] at hu; subst hu
      rw [param_src (id := id) hc key h hsym hp]
      have hN : ∀ v a, (Vec.put A.2 t.size v) a = if a = t.size then v else A.2 a := fun _ _ => rfl
      refine ⟨_, rfl, ?_, ?_, by simp [hs.size], by simp only [hs.M, hs.size], fun a => ?_⟩
      · simp only [unitAc, nac2, Elem.vde, if_true]
        by_cases hk : upper id = key <;> simp [hk, hA]
      · intro a ha
        have ha' : t.size + 1 ≤ a := ha
        simp only [unitAc, nac2, Elem.vde, if_true]
        by_cases hk : upper id = key
        · simp only [hk, if_true, hA, hN]; rw [if_neg (by omega)]; exact hz' a ha'
        · simp only [hk, if_false]; exact hz' a ha'
      · simp only [unitAc, nac2, Elem.vde, if_true, Vec.put, hs.size]
        by_cases hk : upper id = key
        · simp only [hk, if_true, hA, Vec.put]
          split_ifs
          · ring
          · exact hs.N a
        · simp only [hk, if_false]
          split_ifs with h0
          · rw [hz a (by omega)]; ring
          · exact hs.N a
  | E id n1 n2 sn1 sn2 v =>
    simp only [symStamp2] at hu ⊢
    rw [param_bump hc]
    cases hp : c.param id (factory id.toList true false) (.ok v) with
    | error => rw [hp] at hu; simp at hu
    | ok w =>
      rw [hp] at hu; simp only [Except.ok.injEq] at hu; subst hu
      refine ⟨_, rfl, by simp [nac2, unitAc, Elem.vde, hA], ?_, by simp [hs.size],
        by simp only [hs.M, hs.size], ?_⟩
      · simpa [nac2, unitAc, Elem.vde] using hz'
      · simpa [nac2, unitAc, Elem.vde] using hs.N
  | H id n1 n2 src v =>
    simp only [symStamp2] at hu ⊢
    rw [param_bump hc]
    cases hp : c.param id (factory id.toList true false) (.ok v) with
    | error => rw [hp] at hu; simp at hu
    | ok w =>
      rw [hp] at hu; simp only at hu ⊢
      cases hk : findVdeIndex circ src with
      | error => rw [hk] at hu; simp at hu
      | ok k =>
        rw [hk] at hu; simp only at hu ⊢
        by_cases hlt : nv + k < t.size + 1
        · rw [if_pos hlt] at hu
          rw [if_pos (by rw [hs.size]; exact hlt)]
          simp only [Except.ok.injEq] at hu; subst hu
          refine ⟨_, rfl, by simp [nac2, unitAc, Elem.vde, hA], ?_, by simp [hs.size],
            by simp only [hs.M, hs.size], ?_⟩
          · simpa [nac2, unitAc, Elem.vde] using hz'
          · simpa [nac2, unitAc, Elem.vde] using hs.N
        · rw [if_neg hlt] at hu; simp at hu
  | L id n1 n2 v ic coup =>
    simp only [symStamp2] at hu ⊢
    rw [param_bump hc]
    by_cases hac : c.ac = true
    · rw [if_pos hac] at hu ⊢
      cases hp : c.param id (factory id.toList true true) (.error .attr) with
      | error => rw [hp] at hu; simp at hu
      | ok w =>
        rw [hp] at hu; simp only [Except.ok.injEq] at hu; subst hu
        refine ⟨_, rfl, by simp [nac2, unitAc, Elem.vde, hA], ?_, by simp [hs.size],
          by simp only [hs.M, hs.size], ?_⟩
        · simpa [nac2, unitAc, Elem.vde] using hz'
        · simpa [nac2, unitAc, Elem.vde] using hs.N
    · rw [if_neg hac] at hu ⊢
      simp only [Except.ok.injEq] at hu; subst hu
      refine ⟨_, rfl, by simp [nac2, unitAc, Elem.vde, hA], ?_, by simp [hs.size],
        by simp only [hs.M, hs.size], ?_⟩
      · simpa [nac2, unitAc, Elem.vde] using hz'
      · simpa [nac2, unitAc, Elem.vde] using hs.N
  | _ =>
    simp only [symStamp2, Except.ok.injEq] at hu; subst hu
    refine ⟨t', rfl, by simp [nac2, unitAc, Elem.vde, hA], ?_, hs.size, hs.M, ?_⟩
    · simpa [nac2, unitAc, Elem.vde] using hz
    · simpa [nac2, unitAc, Elem.vde] using hs.N

theorem shift3 {c : Cfg α} (hc : c.subs = noSubs) {key : List Char} {h : α} {A : Vec α}
    {circ : List (Elem α)} {nv : Nat} {t t' u : Sys α} {e : Elem α}
    (hs : Shift h A t t') (hu : symStamp3 c circ nv t e = .ok u) :
    ∃ u', symStamp3 { c with ρ := bump c.ρ key h } circ nv t' e = .ok u' ∧ Shift h A u u' := by
  cases e with
  | L id n1 n2 v ic coup =>
    simp only [symStamp3] at hu ⊢
    by_cases hac : c.ac = true
    · rw [if_pos hac] at hu ⊢
      cases hk : findVdeIndex circ id with
      | error => rw [hk] at hu; simp at hu
      | ok k =>
        rw [hk] at hu; simp only at hu ⊢
        have hl : ∀ M, loop (symCoupling { c with ρ := bump c.ρ key h } circ (nv + k) nv id) M coup =
            loop (symCoupling c circ (nv + k) nv id) M coup := by
          intro M
          refine loop_congr M (fun cd _ M => ?_)
          unfold symCoupling
          rw [param_bump hc]
        rw [hl, hs.M]
        cases hp : loop (symCoupling c circ (nv + k) nv id) t.M coup with
        | error => rw [hp] at hu; simp at hu
        | ok M =>
          rw [hp] at hu; simp only [Except.ok.injEq] at hu; subst hu
          exact ⟨_, rfl, hs.size, rfl, hs.N⟩
    · rw [if_neg hac] at hu ⊢
      simp only [Except.ok.injEq] at hu; subst hu
      exact ⟨t', rfl, hs.size, hs.M, hs.N⟩
  | F id n1 n2 src v =>
    simp only [symStamp3] at hu ⊢
    rw [param_bump hc]
    cases hk : findVdeIndex circ src with
    | error => rw [hk] at hu; simp at hu
    | ok k =>
      rw [hk] at hu; simp only at hu ⊢
      cases hp : c.param id (factory id.toList true false) (.ok v) with
      | error => rw [hp] at hu; simp at hu
      | ok w =>
        rw [hp] at hu; simp only [Except.ok.injEq] at hu; subst hu
        exact ⟨_, rfl, hs.size, by simp only [hs.M], hs.N⟩
  | _ =>
    simp only [symStamp3, Except.ok.injEq] at hu; subst hu
    exact ⟨t', rfl, hs.size, hs.M, hs.N⟩

/-- The symbolic vector is affine in the symbol of a source: its slope is the AC constant
vector of the circuit with this source driven by a unit phasor. -/
theorem generate_shift {c : Cfg α} (hc : c.subs = noSubs) {key : List Char} (h : α)
    {circ : List (Elem α)} {nv : Nat} {t : Sys α} (hn : ∀ e ∈ circ, NodesLt nv e)
    (hsym : ∀ e ∈ circ, upper e.id = key → c.isSym e.id = true)
    (ht : symGenerate c circ nv = .ok t) :
    ∃ t', symGenerate { c with ρ := bump c.ρ key h } circ nv = .ok t' ∧
      Shift h (genNac (circ.map (unitAc key)) nv).2 t t' := by
  have l1 : ∀ (l : List (Elem α)) (A : Vec α) (s s' u : Sys α),
      (∀ e ∈ l, e ∈ circ) → Shift h A s s' → (∀ a, nv ≤ a → A a = 0) →
      loop (symStamp1 c) s l = .ok u → 
      ∃ u', loop (symStamp1 { c with ρ := bump c.ρ key h }) s' l = .ok u' ∧ u.size = s.size ∧
        Shift h ((l.map (unitAc key)).foldl nac1 A) u u' ∧
        ∀ a, nv ≤ a → ((l.map (unitAc key)).foldl nac1 A) a = 0 := by
    intro l
    induction l with
    | nil =>
      intro A s s' u _ hs hA hl
      simp only [loop, Except.ok.injEq] at hl; subst hl
      exact ⟨s', rfl, rfl, hs, hA⟩
    | cons e r ih =>
      intro A s s' u hm hs hA hl
      simp only [loop] at hl
      cases h1 : symStamp1 c s e with
      | error => rw [h1] at hl; simp at hl
      | ok s1 =>
        rw [h1] at hl; simp only at hl
        have he := hm e (List.mem_cons_self ..)
        obtain ⟨s1', hs1, hsh⟩ := shift1 hc (hsym e he) hs h1
        have hA1 : ∀ a, nv ≤ a → (nac1 A (unitAc key e)) a = 0 := by
          intro a ha
          have hN := hn e he
          cases e with
          | I id n1 n2 src =>
            simp only [NodesLt] at hN
            simp only [unitAc, nac1]
            by_cases hk : upper id = key
            · simp only [hk, if_true, vec_add_apply]
              rw [if_neg (by omega), if_neg (by omega), hA a ha]; simp
            · simp only [hk, if_false]; exact hA a ha
          | _ => exact hA a ha
        have hsz : s1.size = s.size := symStamp1_size h1
        obtain ⟨u', hu', hsz', hsh', hA'⟩ := ih _ _ _ _
          (fun e' h' => hm e' (List.mem_cons_of_mem _ h')) hsh hA1 hl
        refine ⟨u', ?_, by rw [hsz', hsz], hsh', hA'⟩
        simp only [loop, hs1]; exact hu'
  have l2 : ∀ (l : List (Elem α)) (A : Nat × Vec α) (s s' u : Sys α),
      (∀ e ∈ l, e ∈ circ) → Shift h A.2 s s' → A.1 = s.size → (∀ a, s.size ≤ a → A.2 a = 0) →
      loop (symStamp2 c circ nv) s l = .ok u →
      ∃ u', loop (symStamp2 { c with ρ := bump c.ρ key h } circ nv) s' l = .ok u' ∧
        Shift h ((l.map (unitAc key)).foldl nac2 A).2 u u' := by
    intro l
    induction l with
    | nil =>
      intro A s s' u _ hs _ _ hl
      simp only [loop, Except.ok.injEq] at hl; subst hl
      exact ⟨s', rfl, hs⟩
    | cons e r ih =>
      intro A s s' u hm hs hA hz hl
      simp only [loop] at hl
      cases h1 : symStamp2 c circ nv s e with
      | error => rw [h1] at hl; simp at hl
      | ok s1 =>
        rw [h1] at hl; simp only at hl
        obtain ⟨s1', hs1, hA1, hz1, hsh⟩ := shift2 hc (hsym e (hm e (List.mem_cons_self ..))) hA hs hz h1
        obtain ⟨u', hu', hsh'⟩ := ih _ _ _ _
          (fun e' h' => hm e' (List.mem_cons_of_mem _ h')) hsh hA1 hz1 hl
        refine ⟨u', ?_, hsh'⟩
        simp only [loop, hs1]; exact hu'
  have l3 : ∀ (l : List (Elem α)) (A : Vec α) (s s' u : Sys α), Shift h A s s' →
      loop (symStamp3 c circ nv) s l = .ok u →
      ∃ u', loop (symStamp3 { c with ρ := bump c.ρ key h } circ nv) s' l = .ok u' ∧
        Shift h A u u' := by
    intro l
    induction l with
    | nil =>
      intro A s s' u hs hl
      simp only [loop, Except.ok.injEq] at hl; subst hl
      exact ⟨s', rfl, hs⟩
    | cons e r ih =>
      intro A s s' u hs hl
      simp only [loop] at hl
      cases h1 : symStamp3 c circ nv s e with
      | error => rw [h1] at hl; simp at hl
      | ok s1 =>
        rw [h1] at hl; simp only at hl
        obtain ⟨s1', hs1, hsh⟩ := shift3 (key := key) hc hs h1
        obtain ⟨u', hu', hsh'⟩ := ih _ _ _ _ hsh hl
        refine ⟨u', ?_, hsh'⟩
        simp only [loop, hs1]; exact hu'
  simp only [symGenerate] at ht
  cases h1 : loop (symStamp1 c) ⟨nv, fun _ _ => 0, fun _ => 0⟩ circ with
  | error => rw [h1] at ht; simp at ht
  | ok s1 =>
    rw [h1] at ht; simp only at ht
    cases h2 : loop (symStamp2 c circ nv) s1 circ with
    | error => rw [h2] at ht; simp at ht
    | ok s2 =>
      rw [h2] at ht; simp only at ht
      obtain ⟨u1, e1, z1, sh1, a1⟩ := l1 circ (fun _ => 0) _ ⟨nv, fun _ _ => 0, fun _ => 0⟩ _
        (fun _ h => h) ⟨rfl, rfl, fun _ => by simp⟩ (fun _ _ => rfl) h1
      simp only at z1
      obtain ⟨u2, e2, sh2⟩ := l2 circ (nv, (circ.map (unitAc key)).foldl nac1 (fun _ => 0)) _ _ _
        (fun _ h => h) sh1 z1.symm (by rw [z1]; exact a1) h2
      obtain ⟨u3, e3, sh3⟩ := l3 circ _ _ _ _ sh2 ht
      refine ⟨u3, ?_, sh3⟩
      simp only [symGenerate, e1, e2, e3]

/-- C112: the derivative of the symbolic solution with respect to the symbol of a source
(`calculate_gains`) is the AC response to a unit phasor at this source, all the other sources
being off. Increasing the value of the source by `h` leaves the matrix alone and adds `h`
times the AC vector of `_generate_Nac`; so if `g` solves the AC equations, `x + h*g` solves
the new equations, and conversely the change of any solution solves the AC equations with
amplitude `h`. (The differentiation of expressions itself is sympy's.) -/
theorem C112_gain_is_ac_response {c : Cfg α} (hc : c.subs = noSubs) {key : List Char} (h : α)
    {circ : List (Elem α)} {nv : Nat} {t : Sys α} (hn : ∀ e ∈ circ, NodesLt nv e)
    (hsym : ∀ e ∈ circ, upper e.id = key → c.isSym e.id = true)
    (ht : symGenerate c circ nv = .ok t) :
    ∃ t', symGenerate { c with ρ := bump c.ρ key h } circ nv = .ok t' ∧
      t'.size = t.size ∧ t'.M = t.M ∧
      ∀ (S r : Nat) (x : Vec α), mulVec S t.M x r + t.N r = 0 →
        (∀ g : Vec α, mulVec S t.M g r + (genNac (circ.map (unitAc key)) nv).2 r = 0 →
          mulVec S t'.M (fun i => x i + h * g i) r + t'.N r = 0) ∧
        (∀ x' : Vec α, mulVec S t'.M x' r + t'.N r = 0 →
          mulVec S t.M (fun i => x' i - x i) r + h * (genNac (circ.map (unitAc key)) nv).2 r = 0) := by
  obtain ⟨t', ht', hs⟩ := generate_shift hc h hn hsym ht
  refine ⟨t', ht', hs.size, hs.M, fun S r x hx => ⟨fun g hg => ?_, fun x' hx' => ?_⟩⟩
  · have : mulVec S t'.M (fun i => x i + h * g i) r = mulVec S t.M x r + h * mulVec S t.M g r := by
      rw [hs.M]
      unfold mulVec
      rw [Finset.mul_sum, ← Finset.sum_add_distrib]
      exact Finset.sum_congr rfl (fun i _ => by ring)
    rw [this, hs.N]
    linear_combination hx + h * hg
  · have : mulVec S t.M (fun i => x' i - x i) r = mulVec S t'.M x' r - mulVec S t.M x r := by
      rw [hs.M]
      unfold mulVec
      rw [← Finset.sum_sub_distrib]
      exact Finset.sum_congr rfl (fun i _ => by ring)
    rw [hs.N] at hx'
    rw [this]
    linear_combination hx' - hx

/-- a current source and a voltage source, both symbolic -/
example : let circ : List (Elem ℚ) := [.V "V1" 1 0 {}, .R "R1" 1 2 1, .I "I1" 2 0 {}]
    let c : Cfg ℚ := { ρ := fun _ => 1, s := 0, subs := noSubs }
    (symGenerate c circ 3).isOk = true ∧ (genNac (circ.map (unitAc "V1".toList)) 3).2 3 = -1 ∧
    (genNac (circ.map (unitAc "I1".toList)) 3).2 2 = 1 := by
  refine ⟨rfl, ?_⟩
  decide +kernel

end Verif.Symbolic
