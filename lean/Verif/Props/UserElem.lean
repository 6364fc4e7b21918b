import Verif.Model.UserElem
import Mathlib.Data.List.Nodup

/-!
# C203: lines of user-defined elements
-/

namespace Verif.UserElem
open Verif.Small

variable {Mod Cls El : Type}

/-! ### Parameters -/

/-- the tokens before a comment -/
def written (toks : List Txt) : List Txt := toks.takeWhile fun t => t.head? ≠ some '*'

theorem params_iff (toks : List Txt) : ∀ acc d, (acc.map Prod.fst).Nodup → (params toks acc = .ok d ↔
    ∃ new, d = acc ++ new ∧ (written toks).map (fun t => paramValue t .float) = new.map some ∧ (d.map Prod.fst).Nodup) := by
  induction toks with
  | nil =>
    intro acc d hn
    constructor
    · intro h
      injection h with h
      subst h
      exact ⟨[], by simp, rfl, hn⟩
    · rintro ⟨new, rfl, h, -⟩
      have : new = [] := by simpa [written] using h.symm
      simp [this, params]
  | cons t r ih =>
    intro acc d hn
    rw [params]
    by_cases hs : t.head? = some '*'
    · have hw : written (t :: r) = [] := by simp [written, hs]
      rw [if_pos hs, hw]
      constructor
      · intro h
        injection h with h
        subst h
        exact ⟨[], by simp, rfl, hn⟩
      · rintro ⟨new, rfl, h, -⟩
        have : new = [] := by simpa using h.symm
        simp [this]
    · have hw : written (t :: r) = t :: written r := by simp [written, hs]
      rw [if_neg hs, hw, List.map_cons]
      rcases hp : paramValue t .float with _ | ⟨p, v⟩
      · simp only [reduceCtorEq, false_iff]
        rintro ⟨new, -, h, -⟩
        rcases new with _ | ⟨a, b⟩ <;> simp at h
      · by_cases hm : p ∈ acc.map Prod.fst
        · simp only [if_pos hm, reduceCtorEq, false_iff]
          rintro ⟨new, rfl, h, hd⟩
          rcases new with _ | ⟨a, b⟩
          · simp at h
          · obtain ⟨rfl, -⟩ : (p, v) = a ∧ _ := by simpa using h
            rw [List.map_append, List.map_cons] at hd
            exact (List.nodup_append.1 hd).2.2 p hm p (by simp) rfl
        · simp only [if_neg hm]
          have hn' : ((acc ++ [(p, v)]).map Prod.fst).Nodup := by
            rw [List.map_append, List.map_singleton, List.nodup_append]
            refine ⟨hn, by simp, ?_⟩
            intro a ha b hb
            rw [List.mem_singleton.1 hb]
            rintro rfl
            exact hm ha
          rw [ih _ _ hn']
          constructor
          · rintro ⟨new, rfl, h, hd⟩
            exact ⟨(p, v) :: new, by simp, by rw [h, List.map_cons], hd⟩
          · rintro ⟨new, rfl, h, hd⟩
            rcases new with _ | ⟨a, b⟩
            · simp at h
            · rw [List.map_cons] at h
              injection h with h1 h2
              obtain rfl : (p, v) = a := by injection h1
              exact ⟨b, by simp, h2, hd⟩

/-- C203: the parameters are those written before a comment, in their order, no two of the same name; lines with a name given twice
are refused. -/
theorem C203_parameters (toks : List Txt) (d : List (Txt × Val)) : params toks [] = .ok d ↔
    (written toks).map (fun t => paramValue t .float) = d.map some ∧ (d.map Prod.fst).Nodup := by
  rw [params_iff toks [] d List.nodup_nil]
  constructor
  · rintro ⟨new, rfl, h, hn⟩
    exact ⟨by simpa using h, hn⟩
  · rintro ⟨h, hn⟩
    exact ⟨d, rfl, h, hn⟩

/-! ### Elements -/

theorem pop_some {key : Txt} {d d' : List (Txt × Val)} {v : Val} (h : pop key d = (some v, d')) :
    (key, v) ∈ d ∧ d' = d.filter fun p => p.1 ≠ key := by
  unfold pop at h
  injection h with h1 h2
  refine ⟨?_, h2.symm⟩
  obtain ⟨p, hp, rfl⟩ := Option.map_eq_some_iff.1 h1
  have h3 := List.mem_of_find?_eq_some hp
  have h4 := List.find?_some hp
  simp only [decide_eq_true_eq] at h4
  rw [← h4]
  exact h3

/-- modules that are there come from where modules are found -/
structure Sound (env : Env Mod Cls El) (w : World Mod) : Prop where
  found : ∀ p ∈ w.loaded, env.find p.1 = some p.2
  imports : w.imports = w.loaded.map Prod.fst
  once : w.imports.Nodup

theorem load_sound {env : Env Mod Cls El} {w : World Mod} (hw : Sound env w) (name : Txt) :
    Sound env (load env w name).1 ∧ (load env w name).1.circ = w.circ ∧
      ∀ m, (load env w name).2 = .ok m → env.find name = some m := by
  unfold load
  generalize hf : w.loaded.find? _ = q
  rcases q with _ | p
  · rcases he : env.find name with _ | m
    · exact ⟨hw, rfl, fun m h => by cases h⟩
    · refine ⟨⟨?_, ?_, ?_⟩, rfl, fun m' h => by injection h with h; rw [h]⟩
      · intro q hq
        rcases List.mem_append.1 hq with hq | hq
        · exact hw.found q hq
        · rw [List.mem_singleton.1 hq]; exact he
      · simp [hw.imports]
      · simp only
        rw [List.nodup_append]
        refine ⟨hw.once, by simp, ?_⟩
        intro a ha b hb
        rw [List.mem_singleton.1 hb]
        rintro rfl
        rw [hw.imports, List.mem_map] at ha
        obtain ⟨q, hq, rfl⟩ := ha
        have := List.find?_eq_none.1 hf q hq
        simp at this
  · refine ⟨hw, rfl, fun m h => ?_⟩
    injection h with h
    have h3 := List.find?_some hf
    simp only [decide_eq_true_eq] at h3
    rw [← h3, ← h]
    exact hw.found p (List.mem_of_find?_eq_some hf)

theorem build_fst (env : Env Mod Cls El) (w : World Mod) (c : Cls) (id n1 n2 : Txt) (d : List (Txt × Val)) :
    (build env w c id n1 n2 d).1 =
      { w with circ := (Nodes.addNode (Nodes.addNode w.circ (String.ofList n1)).1 (String.ofList n2)).1 } := by
  unfold build
  simp only
  split
  · rfl
  · split <;> rfl

theorem withClass_cases (env : Env Mod Cls El) (w : World Mod) (m : Mod) (id n1 n2 : Txt) (d : List (Txt × Val)) :
    (∃ e, withClass env w m id n1 n2 d = (w, .error e)) ∨ ∃ t c, ("type".toList, .text t) ∈ d ∧ env.cls m t = some c ∧
      withClass env w m id n1 n2 d = build env w c id n1 n2 (d.filter fun p => p.1 ≠ "type".toList) := by
  unfold withClass
  rcases hp : pop "type".toList d with ⟨v, d'⟩
  rcases v with _ | v
  · exact .inl ⟨_, rfl⟩
  cases v with
  | text t =>
    obtain ⟨h1, rfl⟩ := pop_some hp
    simp only
    rcases hc : env.cls m t with _ | c
    · exact .inl ⟨_, rfl⟩
    · exact .inr ⟨t, c, h1, hc, rfl⟩
  | num x => exact .inl ⟨_, rfl⟩
  | bool x => exact .inl ⟨_, rfl⟩

theorem parseY_cases {env : Env Mod Cls El} {w : World Mod} (hw : Sound env w) (l : List Txt) :
    (∃ w' e, parseY env w l = (w', .error e) ∧ w'.circ = w.circ ∧ Sound env w') ∨
    ∃ id n1 n2 p r d name t m c w', l = id :: n1 :: n2 :: p :: r ∧ params (p :: r) [] = .ok d ∧ ("module".toList, .text name) ∈ d ∧
      ("type".toList, .text t) ∈ d ∧ env.find name = some m ∧ env.cls m t = some c ∧ w'.circ = w.circ ∧ Sound env w' ∧
      parseY env w l = build env w' c id n1 n2 ((d.filter fun p => p.1 ≠ "module".toList).filter fun p => p.1 ≠ "type".toList) := by
  match l with
  | [] => exact .inl ⟨w, _, rfl, rfl, hw⟩
  | [_] => exact .inl ⟨w, _, rfl, rfl, hw⟩
  | [_, _] => exact .inl ⟨w, _, rfl, rfl, hw⟩
  | [_, _, _] => exact .inl ⟨w, _, rfl, rfl, hw⟩
  | id :: n1 :: n2 :: p :: r =>
    rw [parseY]
    rcases hd : params (p :: r) [] with e | d
    · exact .inl ⟨w, _, rfl, rfl, hw⟩
    simp only
    rcases hp : pop "module".toList d with ⟨v, d'⟩
    rcases v with _ | v
    · exact .inl ⟨w, _, rfl, rfl, hw⟩
    cases v with
    | num x => exact .inl ⟨w, _, rfl, rfl, hw⟩
    | bool x => exact .inl ⟨w, _, rfl, rfl, hw⟩
    | text name =>
      obtain ⟨h1, rfl⟩ := pop_some hp
      obtain ⟨l1, l2, l3⟩ := load_sound hw name
      simp only
      rcases hl : load env w name with ⟨w', e | m⟩
      · rw [hl] at l1 l2
        exact .inl ⟨w', _, rfl, l2, l1⟩
      · rw [hl] at l1 l2 l3
        simp only
        rcases withClass_cases env w' m id n1 n2 (d.filter fun p => p.1 ≠ "module".toList) with ⟨e, he⟩ | ⟨t, c, h2, h3, h4⟩
        · exact .inl ⟨w', e, he, l2, l1⟩
        · exact .inr ⟨id, n1, n2, p, r, d, name, t, m, c, w', rfl, hd, h1, (List.mem_filter.1 h2).1, l3 m rfl, h3, l2, l1, h4⟩

/-- C203: an accepted line gives what the constructor of the class named in it returns for the nodes, the parameters that are not
`module` and `type`, and the name of the element, and the element passed its own check. -/
theorem C203_element {env : Env Mod Cls El} {w w' : World Mod} (hw : Sound env w) {l : List Txt} {e : El}
    (h : parseY env w l = (w', .ok e)) :
    ∃ id n1 n2 toks d name t m c, l = id :: n1 :: n2 :: toks ∧ params toks [] = .ok d ∧ ("module".toList, .text name) ∈ d ∧
      ("type".toList, .text t) ∈ d ∧ env.find name = some m ∧ env.cls m t = some c ∧
      env.make c (Nodes.addNode w.circ (String.ofList n1)).2
        (Nodes.addNode (Nodes.addNode w.circ (String.ofList n1)).1 (String.ofList n2)).2
        (d.filter fun p => p.1 ≠ "module".toList ∧ p.1 ≠ "type".toList) id = some e ∧ env.check e = true ∧
      w'.circ = (Nodes.addNode (Nodes.addNode w.circ (String.ofList n1)).1 (String.ofList n2)).1 := by
  rcases parseY_cases hw l with ⟨w1, e1, h1, -⟩ | ⟨id, n1, n2, p, r, d, name, t, m, c, w1, rfl, h1, h2, h3, h4, h5, h6, -, h7⟩
  · rw [h1] at h; cases h
  · rw [h7] at h
    have hf := congrArg Prod.fst h
    rw [build_fst, h6] at hf
    unfold build at h
    simp only [h6] at h
    generalize hm : env.make c _ _ _ _ = x at h
    rcases x with _ | x
    · cases h
    · simp only at h
      by_cases hc : env.check x = true
      · rw [if_pos hc] at h
        injection h with _ h
        injection h with h
        subst h
        refine ⟨id, n1, n2, p :: r, d, name, t, m, c, rfl, h1, h2, h3, h4, h5, ?_, hc, (congrArg World.circ hf).symm⟩
        rw [← hm, List.filter_filter]
        congr 2
        funext q
        simp [Bool.and_comm]
      · rw [if_neg hc] at h
        cases h

/-- C203: every module is imported at most once, whatever lines are read, also those that are refused. -/
theorem C203_import_once (env : Env Mod Cls El) (circ : Nodes.Circ) (lines : List (List Txt)) :
    (parseAll env ⟨circ, [], []⟩ lines).imports.Nodup := by
  have h0 : Sound env ⟨circ, [], []⟩ := ⟨by simp, rfl, List.nodup_nil⟩
  suffices ∀ (lines : List (List Txt)) (w : World Mod), Sound env w → Sound env (parseAll env w lines) from
    (this lines _ h0).once
  intro lines
  induction lines with
  | nil => intro w hw; exact hw
  | cons l r ih =>
    intro w hw
    refine ih _ ?_
    show Sound env (parseY env w l).1
    rcases parseY_cases hw l with ⟨w1, e1, h1, -, h2⟩ | ⟨id, n1, n2, p, q, d, name, t, m, c, w1, -, -, -, -, -, -, -, h6, h7⟩
    · rw [h1]; exact h2
    · rw [h7, build_fst]
      exact ⟨h6.found, h6.imports, h6.once⟩

/-- C203: a line that is refused leaves the circuit as it was if constructors return elements that pass their checks. What is
missing: elements that are refused by their check leave their nodes behind (`C203_refused_refuted`). -/
theorem C203_refused_partial {env : Env Mod Cls El} {w : World Mod} (hw : Sound env w)
    (hok : ∀ c a b d id, ∃ e, env.make c a b d id = some e ∧ env.check e = true) {l : List Txt} {x : YErr}
    (h : (parseY env w l).2 = .error x) : (parseY env w l).1.circ = w.circ := by
  rcases parseY_cases hw l with ⟨w1, e1, h1, h2, -⟩ | ⟨id, n1, n2, p, q, d, name, t, m, c, w1, -, -, -, -, -, -, -, -, h7⟩
  · rw [h1]; exact h2
  · exfalso
    rw [h7] at h
    unfold build at h
    simp only at h
    obtain ⟨e, h8, h9⟩ := hok c (Nodes.addNode w1.circ (String.ofList n1)).2
      (Nodes.addNode (Nodes.addNode w1.circ (String.ofList n1)).1 (String.ofList n2)).2
      ((d.filter fun p => p.1 ≠ "module".toList).filter fun p => p.1 ≠ "type".toList) id
    rw [h8] at h
    simp [h9] at h

/-! ### Examples -/

/-- one module `osc` with a class `oscillator`, whose elements fail their check if there are no parameters -/
def exEnv : Env Unit Unit (List (Txt × Val)) where
  find := fun n => if n = "osc".toList then some () else none
  cls := fun _ t => if t = "oscillator".toList then some () else none
  make := fun _ _ _ d _ => some d
  check := fun e => !e.isEmpty

def exWorld : World Unit := ⟨{}, [], []⟩

example : Sound exEnv exWorld := ⟨by simp [exWorld], rfl, by simp [exWorld]⟩

def line (ts : List String) : List Txt := ts.map String.toList

/-- C203 refuted: an element that fails its check is refused, but its nodes stay in the circuit. -/
theorem C203_refused_refuted : ((parseY exEnv exWorld (line ["y1", "a", "b", "module=osc", "type=oscillator"])).2.toOption = none) ∧
    (parseY exEnv exWorld (line ["y1", "a", "b", "module=osc", "type=oscillator"])).1.circ ≠ exWorld.circ := by
  decide +kernel

/-- C203 refuted: a module whose name is a number raises TypeError and not an error about the netlist. -/
theorem C203_number_refuted : ∃ l, (parseY exEnv exWorld l).2.toOption = none ∧
    (match (parseY exEnv exWorld l).2 with | .error e => e | .ok _ => .ctor) = .type :=
  ⟨line ["y1", "a", "b", "module=1", "type=oscillator"], by decide +kernel⟩

/-- C203 refuted: the function of the API for such elements, `add_user_defined`, cannot be used: whatever it is called with it raises
NameError (it looks up `module_name` and not its parameter `module`), and the circuit stays as it was. -/
theorem C203_api_refuted (rest : World Mod → World Mod × Except YErr El) (w : World Mod) :
    addUserDefined globals rest w = (w, .error .name) := by
  unfold addUserDefined
  rw [if_neg (by decide)]

/-- a line that is accepted -/
example : (parseY exEnv exWorld (line ["y1", "a", "b", "type=oscillator", "f=2k", "module=osc", "*", "f=1"])).2.toOption =
    some [("f".toList, .num 2000)] := by
  decide +kernel

end Verif.UserElem
