import Verif.Model.SymDev
import Verif.Props.Stamp
import Mathlib.Data.Rat.Floor
import Mathlib.Tactic.Ring
import Mathlib.Tactic.NormNum

/-!
# C202: the symbolic stamps of devices are their numeric ones

With the symbols of a device replaced by its conductances at an operating point, the symbolic matrix without the row and column of
the reference node has to be the matrix of the AC analysis.
-/

namespace Verif.SymDev
open Verif.Circuit Verif.Mna Verif.Symbolic Verif.Stamp

variable {K : Type} [Field K]

/-- 1 if the numbers are equal -/
def ind (a b : ℕ) : K := if a = b then 1 else 0

theorem add_ind (M : Mat K) (i j r c : ℕ) (v : K) : M.add i j v r c = M r c + ind r i * ind c j * v := by
  unfold Mat.add Mat.put ind
  by_cases h1 : r = i <;> by_cases h2 : c = j <;> simp [h1, h2]

theorem and_ind (a b r c : ℕ) (v : K) : (if a = r ∧ b = c then v else 0) = ind r a * ind c b * v := by
  unfold ind
  by_cases h1 : a = r <;> by_cases h2 : b = c <;> simp [h1, h2, eq_comm]

theorem symMos_entry (c : Cfg K) (r0s : Bool) (M : Mat K) (id : List Char) (n1 ng n2 r k : ℕ) :
    symMos c r0s M id n1 ng n2 r k = M r k + (ind r n1 - ind r n2) * (ind k ng - ind k n2) * c.ρ (Cfg.sym c "gm_" id) +
      (if r0s then (ind r n1 - ind r n2) * (ind k n1 - ind k n2) * (1 / c.ρ (Cfg.sym c "r0_" id)) else 0) := by
  unfold symMos
  cases r0s
  · simp only [Bool.false_eq_true, if_false, add_ind]
    ring
  · simp only [if_true, add_ind]
    ring

theorem symDiode_entry (c : Cfg K) (M : Mat K) (id : List Char) (n1 n2 r k : ℕ) :
    symDiode c M id n1 n2 r k = M r k + (ind r n1 - ind r n2) * (ind k n1 - ind k n2) * c.ρ (Cfg.sym c "g" id) := by
  unfold symDiode
  simp only [add_ind]
  ring

/-- the reduced matrix -/
def Same (J : ℤ → ℤ → K) (M : Mat K) : Prop := ∀ r c : ℕ, J r c = M (r + 1) (c + 1)

/-- C202: the symbolic stamp of a diode is the numeric one if the symbol stands for the conductance, and twice `options.gmin` for
a conductance of zero. -/
theorem C202_diode [DecidableEq K] (c : Cfg K) {J : ℤ → ℤ → K} {M : Mat K} (h : Same J M) (id : List Char) {n1 n2 : ℕ}
    (hn : n1 ≠ 0 ∨ n2 ≠ 0) (gmin gm : K) (hg : c.ρ (Cfg.sym c "g" id) = if gm = 0 then gmin * 2 else gm) :
    ∃ J', addStamp J [n1, n2] (diodeStamp gmin gm) = some J' ∧ Same J' (symDiode c M id n1 n2) := by
  obtain ⟨J', h1, h2, -⟩ := C45_folded J [n1, n2] (diodeStamp gmin gm) rfl
    (by intro row hrow; simp only [diodeStamp, List.mem_cons, List.not_mem_nil, or_false] at hrow
        rcases hrow with h | h <;> subst h <;> rfl)
    (by rcases hn with h | h
        · exact ⟨n1, by simp, h⟩
        · exact ⟨n2, by simp, h⟩)
  refine ⟨J', h1, fun r k => ?_⟩
  rw [h2, symDiode_entry, h, hg]
  simp only [fullEntry, diodeStamp, List.zip_cons_cons, List.zip_nil_left, List.map_cons, List.map_nil, List.sum_cons,
    List.sum_nil, and_ind]
  ring

/-- C202: what the matrix of the AC analysis has more than the symbolic one for a square-law transistor with output resistance, for
all connections: the transconductance of the bulk, from bulk to source. -/
theorem C202_mosq_partial [DecidableEq K] (c : Cfg K) {J : ℤ → ℤ → K} {M : Mat K} (h : Same J M) (id : List Char)
    {n1 ng n2 nb : ℕ} (hn : n1 ≠ 0 ∨ ng ≠ 0 ∨ n2 ≠ 0 ∨ nb ≠ 0) (gmin : K) {gmd gmg : K} (gmb : K) (hd : gmd ≠ 0) (hg : gmg ≠ 0)
    (h1 : c.ρ (Cfg.sym c "gm_" id) = gmg) (h2 : c.ρ (Cfg.sym c "r0_" id) = 1 / gmd) :
    ∃ J', addStamp J [n1, ng, n2, nb] (mosStamp gmin gmd gmg gmb) = some J' ∧
      ∀ r k : ℕ, J' r k = symMos c true M id n1 ng n2 (r + 1) (k + 1) +
        (ind (r + 1) n1 - ind (r + 1) n2) * (ind (k + 1) nb - ind (k + 1) n2) * (if gmb = 0 then -2 * gmin else gmb) := by
  obtain ⟨J', e1, e2, -⟩ := C45_folded J [n1, ng, n2, nb] (mosStamp gmin gmd gmg gmb) rfl
    (by intro row hrow; simp only [mosStamp, List.mem_cons, List.not_mem_nil, or_false] at hrow
        rcases hrow with h | h | h | h <;> subst h <;> rfl)
    (by rcases hn with h | h | h | h
        · exact ⟨n1, by simp, h⟩
        · exact ⟨ng, by simp, h⟩
        · exact ⟨n2, by simp, h⟩
        · exact ⟨nb, by simp, h⟩)
  refine ⟨J', e1, fun r k => ?_⟩
  rw [e2, symMos_entry, h, h1, h2, if_pos rfl]
  simp only [fullEntry, mosStamp, if_neg hd, if_neg hg, List.zip_cons_cons, List.zip_nil_left, List.map_cons, List.map_nil,
    List.sum_cons, List.sum_nil, and_ind, one_div_one_div]
  ring

/-- C202: so the two agree for transistors with bulk and source tied together. -/
theorem C202_mosq_tied [DecidableEq K] (c : Cfg K) {J : ℤ → ℤ → K} {M : Mat K} (h : Same J M) (id : List Char)
    {n1 ng n2 : ℕ} (hn : n1 ≠ 0 ∨ ng ≠ 0 ∨ n2 ≠ 0) (gmin : K) {gmd gmg : K} (gmb : K) (hd : gmd ≠ 0) (hg : gmg ≠ 0)
    (h1 : c.ρ (Cfg.sym c "gm_" id) = gmg) (h2 : c.ρ (Cfg.sym c "r0_" id) = 1 / gmd) :
    ∃ J', addStamp J [n1, ng, n2, n2] (mosStamp gmin gmd gmg gmb) = some J' ∧ Same J' (symMos c true M id n1 ng n2) := by
  obtain ⟨J', e1, e2⟩ := C202_mosq_partial c h id (nb := n2) (by tauto) gmin gmb hd hg h1 h2
  refine ⟨J', e1, fun r k => ?_⟩
  rw [e2]
  ring

/-- C202: the same for EKV transistors, whose conductances are those to the bulk: the transconductance of the bulk is minus the sum
of the three. -/
theorem C202_ekv_partial (c : Cfg K) {J : ℤ → ℤ → K} {M : Mat K} (h : Same J M) (id : List Char) (n1 ng n2 nb : ℕ)
    (gmd gmg gms : K) (h1 : c.ρ (Cfg.sym c "gm_" id) = gmg) (h2 : c.ρ (Cfg.sym c "r0_" id) = 1 / gmd) (r k : ℕ) :
    addPorts J n1 n2 (ekvPorts n1 ng n2 nb gmd gmg gms) r k = symMos c true M id n1 ng n2 (r + 1) (k + 1) +
        (ind (r + 1) n1 - ind (r + 1) n2) * (ind (k + 1) nb - ind (k + 1) n2) * -(gmd + gmg + gms) := by
  rw [C45_ports, symMos_entry, h, h1, h2, if_pos rfl]
  simp only [ekvPorts, portEntry, List.map_cons, List.map_nil, List.sum_cons, List.sum_nil, one_div_one_div, ind]
  ring

/-- C202: so the two agree for transistors with bulk and source tied together. -/
theorem C202_ekv_tied (c : Cfg K) {J : ℤ → ℤ → K} {M : Mat K} (h : Same J M) (id : List Char) (n1 ng n2 : ℕ)
    (gmd gmg gms : K) (h1 : c.ρ (Cfg.sym c "gm_" id) = gmg) (h2 : c.ρ (Cfg.sym c "r0_" id) = 1 / gmd) :
    Same (addPorts J n1 n2 (ekvPorts n1 ng n2 n2 gmd gmg gms)) (symMos c true M id n1 ng n2) := by
  intro r k
  rw [C202_ekv_partial c h id n1 ng n2 n2 gmd gmg gms h1 h2]
  ring

/-- C202 refuted: no values of the symbols make up for the bulk: a transistor with four different nodes adds nothing to the column of
the bulk in the symbolic matrix, but its transconductance to the one of the AC analysis. -/
theorem C202_bulk_refuted [DecidableEq K] (c : Cfg K) (r0s : Bool) {J : ℤ → ℤ → K} {M : Mat K} (h : Same J M) (id : List Char)
    {d ng n2 b : ℕ} (hs : d + 1 ≠ n2) (hb : b + 1 ≠ d + 1 ∧ b + 1 ≠ ng ∧ b + 1 ≠ n2) (gmin gmd gmg : K) {gmb : K} (hg : gmb ≠ 0) :
    ∃ J', addStamp J [d + 1, ng, n2, b + 1] (mosStamp gmin gmd gmg gmb) = some J' ∧
      J' d b = symMos c r0s M id (d + 1) ng n2 (d + 1) (b + 1) + gmb ∧ ¬ Same J' (symMos c r0s M id (d + 1) ng n2) := by
  obtain ⟨J', e1, e2, -⟩ := C45_folded J [d + 1, ng, n2, b + 1] (mosStamp gmin gmd gmg gmb) rfl
    (by intro row hrow; simp only [mosStamp, List.mem_cons, List.not_mem_nil, or_false] at hrow
        rcases hrow with h | h | h | h <;> subst h <;> rfl)
    ⟨d + 1, by simp, by omega⟩
  have key : J' d b = symMos c r0s M id (d + 1) ng n2 (d + 1) (b + 1) + gmb := by
    have i1 : (ind (d + 1) n2 : K) = 0 := if_neg hs
    have i2 : (ind (b + 1) (d + 1) : K) = 0 := if_neg hb.1
    have i3 : (ind (b + 1) ng : K) = 0 := if_neg hb.2.1
    have i4 : (ind (b + 1) n2 : K) = 0 := if_neg hb.2.2
    have i5 : (ind (d + 1) (d + 1) : K) = 1 := if_pos rfl
    have i6 : (ind (b + 1) (b + 1) : K) = 1 := if_pos rfl
    rw [e2, symMos_entry, h]
    simp only [fullEntry, mosStamp, List.zip_cons_cons, List.zip_nil_left, List.map_cons, List.map_nil, List.sum_cons,
      List.sum_nil, and_ind, i1, i2, i3, i4, i5, i6, if_neg hg]
    cases r0s <;> simp
  refine ⟨J', e1, key, fun hs => hg ?_⟩
  have := hs d b
  rw [key] at this
  exact add_eq_left.1 this

/-- C202 refuted: without the option `r0s` the output resistance is missing as well. -/
theorem C202_r0_refuted (c : Cfg K) (M : Mat K) (id : List Char) (n1 ng n2 : ℕ) (h1 : n1 ≠ n2) (hg : ng ≠ n1) :
    symMos c false M id n1 ng n2 n1 n1 = M n1 n1 := by
  rw [symMos_entry]
  simp [ind, h1, hg.symm]

/-- C202 refuted: the symbol of the output resistance of a transistor is the one of a resistor if that is called `R0_` and the name of
the transistor, and the one of the conductance of a diode may be called like a resistor is in the formulation with conductances. -/
theorem C202_shared_refuted (id : List Char) :
    factory ("r0_".toList ++ id) true true = factory ("R0_".toList ++ id) true true ∧
    factory ("g".toList ++ "xxx1".toList) true true = condSym (factory "R1".toList true true) := by
  constructor
  · unfold factory
    simp
  · decide +kernel

/-! ### Substitutions -/

omit [Field K] in
/-- C202: a substitution of the transconductance of a transistor or of the conductance of a diode, given as for elements, reaches the
symbol of the device, whatever the formulation; without one the symbol has the name in capitals and is positive. -/
theorem C202_substitution (c : Cfg K) (gs : Bool) (pre : String) (id id' : List Char) (hp : pre = "gm_" ∨ pre = "g")
    (d) (h : parseSubs gs [(pre.toList ++ id, pre.toList ++ id')] (fun _ => none) = .ok d) (hc : c.subs = d) :
    Cfg.sym c pre id = ⟨(pre.toList ++ id').map Char.toUpper, .positive⟩ ∧
    Cfg.sym { c with subs := fun _ => none } pre id' = ⟨(pre.toList ++ id').map Char.toUpper, .positive⟩ := by
  refine ⟨?_, rfl⟩
  have hG : posLetter ['G'] = true := by decide +kernel
  have h1 : ('G' == 'R' && gs) = false := by cases gs <;> decide
  have h3 : 'G'.toUpper = 'G' := by decide
  have h4 : 'g'.toUpper = 'G' := by decide
  obtain ⟨r, hr⟩ : ∃ r, pre.toList = 'g' :: r := by rcases hp with rfl | rfl <;> exact ⟨_, rfl⟩
  have hk : ∀ i : List Char, factory ('G' :: ([] ++ (r ++ i))) true true = factory (pre.toList ++ i) true true := by
    intro i
    simp [factory, hr, h3, h4]
  rw [hr] at h
  simp only [List.cons_append, parseSubs, parseSub, h4, h1, Bool.false_eq_true, if_false, hG] at h
  injection h with h
  unfold Cfg.sym Cfg.subst
  rw [hc, ← h]
  unfold update
  simp only
  rw [if_pos (hk id).symm]
  simp [factory, hr, h3, h4]

omit [Field K] in
/-- C202 refuted: in the formulation with conductances a substitution of the output resistance of a transistor is not made, whatever
it is substituted with. -/
theorem C202_substitution_refuted (c : Cfg K) (id v : List Char) (d) (h : parseSubs true [("r0_".toList ++ id, v)] (fun _ => none) = .ok d)
    (hc : c.subs = d) : Cfg.sym c "r0_" id = factory ("r0_".toList ++ id) true true := by
  rcases v with _ | ⟨b, r2⟩
  · cases h
  have h1 : ('r'.toUpper == 'R' && true) = true := by decide
  have hr : "r0_".toList = 'r' :: "0_".toList := rfl
  rw [hr] at h
  simp only [List.cons_append, parseSubs, parseSub, h1, if_true] at h
  injection h with h
  unfold Cfg.sym Cfg.subst
  rw [hc, ← h, update, if_neg]
  · rfl
  · intro e
    have := congrArg (fun x => x.name.head?) e
    simp only [factory, hr, List.cons_append, List.map_cons, List.head?_cons] at this
    revert this
    have : "Gxxx".toList = 'G' :: "xxx".toList := rfl
    rw [this]
    simp only [List.cons_append, List.map_cons, List.head?_cons]
    decide

/-! ### Examples -/

/-- a transistor with drain 1, gate 2, source 3, bulk 4; `gm` is 2, `r0` is 1/5 -/
def exCfg : Cfg ℚ where
  ρ := fun x => if x.name = "GM_M1".toList then 2 else if x.name = "R0_M1".toList then 1 / 5 else 7
  s := 0

example : exCfg.ρ (Cfg.sym exCfg "gm_" "M1".toList) = 2 ∧ exCfg.ρ (Cfg.sym exCfg "r0_" "M1".toList) = 1 / 5 ∧
    exCfg.ρ (Cfg.sym exCfg "g" "D1".toList) = 7 := by decide +kernel

example : Same (K := ℚ) (fun _ _ => 0) fun _ _ => 0 := fun _ _ => rfl

example : (symMos exCfg true (fun _ _ => 0) "M1".toList 1 2 3 1 1, symMos exCfg true (fun _ _ => 0) "M1".toList 1 2 3 1 3,
    symMos exCfg false (fun _ _ => 0) "M1".toList 1 2 3 3 2) = (5, -7, -2) := by decide +kernel

end Verif.SymDev
