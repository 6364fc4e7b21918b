import Verif.Model.NetApi
import Verif.Props.CircStr

/-!
C207: a netlist and the same circuit made through the API.
-/

namespace Verif.NetApi
open Verif.Circuit Verif.Build Verif.Parse Verif.Netlist Verif.Small

variable {sqrt : ℚ → Option ℚ} {tf : Line × List (String × Option Val) → Option ℚ → ℚ}

/-- What both ways accept: no capacitors of zero farad, and switches with models of switches (or without model). -/
def Common (models : List (String × MKind)) : PElem → Prop
  | .C _ _ _ v _ => v ≠ 0
  | .S _ _ _ _ _ m => ∀ k, (models.find? fun x => x.1 = s m).map Prod.snd = some k → k = .sw
  | _ => True

theorem phasor_default (ac : Option ℚ) : phasor (some (ac.getD 0)) = phasor ac := by
  rcases ac with _ | a <;> simp [phasor]

theorem source_default (dc ac : Option ℚ) (fn) : source tf dc (some (ac.getD 0)) fn = source tf dc ac fn := by
  unfold source; rw [phasor_default]

theorem addNode_models (c : Ckt ℚ) (n : String) : (c.addNode n).1.models = c.models := rfl

/-- errors of the two ways that belong to each other -/
def Matching (p : PElem) : PErr → Err → Prop
  | .parse, .circuit => ∃ id n1 n2, p = .R id n1 n2 0
  | .parse, .model => True
  | .parse, .exn => ∃ id nd ng ns nb m w l a b, p = .M id nd ng ns nb m w l a b
  | .parse, .value => ∃ id l1 l2 k, p = .K id l1 l2 k
  | .value, .value => ∃ id l1 l2 k, p = .K id l1 l2 k
  | _, _ => False

/-- one element -/
theorem place_call (c : Ckt ℚ) (p : PElem) (hp : Common c.models p) :
    (∃ c1, place sqrt tf c p = .ok c1 ∧ call sqrt c (toCall tf p) = (c1, none) ∧ c1.models = c.models) ∨
    (∃ e e' c1, place sqrt tf c p = .error e ∧ call sqrt c (toCall tf p) = (c1, some e') ∧ Matching p e e') := by
  cases p with
  | R id n1 n2 v =>
    by_cases hv : v = 0
    · subst hv
      exact .inr ⟨.parse, .circuit, _, by simp [place], by simp [call, toCall, Build.add, Ckt.addNodes2]; rfl, id, n1, n2, rfl⟩
    · exact .inl ⟨_, if_neg hv, by simp [call, toCall, Build.add, Ckt.addNodes2, hv], rfl⟩
  | C id n1 n2 v ic =>
    have hv : v ≠ 0 := hp
    exact .inl ⟨_, rfl, by simp [call, toCall, Build.add, Ckt.addNodes2, hv], rfl⟩
  | L => exact .inl ⟨_, rfl, rfl, rfl⟩
  | V => exact .inl ⟨_, rfl, by simp [call, toCall, Build.add, Ckt.addNodes2, source_default], rfl⟩
  | I => exact .inl ⟨_, rfl, by simp [call, toCall, Build.add, Ckt.addNodes2, source_default], rfl⟩
  | E => exact .inl ⟨_, rfl, rfl, rfl⟩
  | G => exact .inl ⟨_, rfl, rfl, rfl⟩
  | F => exact .inl ⟨_, rfl, rfl, rfl⟩
  | H => exact .inl ⟨_, rfl, rfl, rfl⟩
  | K id l1 l2 k =>
    simp only [place, call, toCall, Dyn.addCoupling]
    rcases Dyn.findPair (s l1) (s l2) c.elems 0 (none, none) with ⟨_ | i, _ | j⟩
    · exact .inr ⟨_, _, _, rfl, rfl, id, l1, l2, k, rfl⟩
    · exact .inr ⟨_, _, _, rfl, rfl, id, l1, l2, k, rfl⟩
    · exact .inr ⟨_, _, _, rfl, rfl, id, l1, l2, k, rfl⟩
    · simp only
      rcases c.elems[i]? with _ | e1
      · exact .inr ⟨_, _, _, rfl, rfl, id, l1, l2, k, rfl⟩
      rcases c.elems[j]? with _ | e2
      · exact .inr ⟨_, _, _, rfl, rfl, id, l1, l2, k, rfl⟩
      simp only
      rcases sqrt (Dyn.indValue e1 * Dyn.indValue e2) with _ | q
      · exact .inr ⟨_, _, _, rfl, rfl, id, l1, l2, k, rfl⟩
      · exact .inl ⟨_, rfl, rfl, rfl⟩
  | S id n1 n2 sn1 sn2 m =>
    simp only [place, call, toCall, Build.add, Ckt.addNodes4, Ckt.addNodes2]
    generalize hc : ((((c.addNode (s n1)).1.addNode (s n2)).1.addNode (s sn1)).1.addNode (s sn2)) = r
    have hm : r.1.model (s m) = (c.models.find? fun x => x.1 = s m).map Prod.snd := by rw [← hc]; rfl
    rcases hk : r.1.model (s m) with _ | k
    · exact .inr ⟨_, _, _, rfl, rfl, trivial⟩
    · have := hp k (hm ▸ hk)
      subst this
      exact .inl ⟨_, rfl, rfl, by rw [← hc]; rfl⟩
  | D id n1 n2 m a ic off =>
    simp only [place, call, toCall, Build.add, Ckt.addNodes2]
    rcases hk : ((c.addNode (s n1)).1.addNode (s n2)).1.model (s m) with _ | k
    · exact .inr ⟨_, _, _, rfl, rfl, trivial⟩
    · exact .inl ⟨_, rfl, rfl, rfl⟩
  | M id nd ng ns nb m w l a b =>
    simp only [place, call, toCall, Build.add, Ckt.addNodes4, Ckt.addNodes2]
    rcases hk : ((((c.addNode (s nd)).1.addNode (s ng)).1.addNode (s ns)).1.addNode (s nb)).1.model (s m) with _ | k
    · exact .inr ⟨_, _, _, rfl, rfl, trivial⟩
    · cases k
      · exact .inl ⟨_, rfl, rfl, rfl⟩
      · exact .inl ⟨_, rfl, rfl, rfl⟩
      · exact .inr ⟨_, _, _, rfl, rfl, id, nd, ng, ns, nb, m, w, l, a, b, rfl⟩
      · exact .inr ⟨_, _, _, rfl, rfl, id, nd, ng, ns, nb, m, w, l, a, b, rfl⟩

/-- C207: the circuit read from a netlist is the circuit made by the calls with the same values, with the same numbers of nodes, the
same elements in the same order and the same couplings. What is missing: capacitors of zero farad, which only netlists take, and
switches with models of other devices, which only the API takes. -/
theorem C207_same_partial (c : Ckt ℚ) (ps : List PElem) (hp : ∀ p ∈ ps, Common c.models p) (c' : Ckt ℚ) :
    build sqrt tf c ps = .ok c' ↔ calls sqrt c (ps.map (toCall tf)) = (c', none) := by
  induction ps generalizing c with
  | nil => simp [build, calls]
  | cons p ps ih =>
    rw [List.map_cons, build, calls]
    rcases place_call (sqrt := sqrt) (tf := tf) c p (hp p (by simp)) with ⟨c1, h1, h2, h3⟩ | ⟨e, e', c1, h1, h2, -⟩
    · rw [h1, h2]
      exact ih c1 (fun q hq => by rw [h3]; exact hp q (by simp [hq]))
    · rw [h1, h2]
      simp

/-- C207: if one of the ways fails then so does the other, at the same element: NetlistParseError stands for CircuitError (resistors of
zero ohm), ModelError and Exception (unknown models) and ValueError (inductors that do not exist). -/
theorem C207_errors_partial (c : Ckt ℚ) (ps : List PElem) (hp : ∀ p ∈ ps, Common c.models p) (e : PErr)
    (h : build sqrt tf c ps = .error e) : ∃ p ∈ ps, ∃ c1 e', calls sqrt c (ps.map (toCall tf)) = (c1, some e') ∧ Matching p e e' := by
  induction ps generalizing c with
  | nil => cases h
  | cons p ps ih =>
    rw [build] at h
    rw [List.map_cons, calls]
    rcases place_call (sqrt := sqrt) (tf := tf) c p (hp p (by simp)) with ⟨c1, h1, h2, h3⟩ | ⟨e1, e', c1, h1, h2, h3⟩
    · rw [h1] at h
      obtain ⟨q, hq, r⟩ := ih c1 (fun q hq => by rw [h3]; exact hp q (by simp [hq])) h
      rw [h2]
      exact ⟨q, by simp [hq], r⟩
    · rw [h1] at h
      cases h
      rw [h2]
      exact ⟨p, by simp, c1, e', rfl, h3⟩

/-- C207 refuted: a netlist may have a capacitor of zero farad, the API refuses it, whatever the circuit. -/
theorem C207_capacitor_refuted (c : Ckt ℚ) (id n1 n2 : Line) (ic : Option ℚ) :
    (∃ c', build sqrt tf c [.C id n1 n2 0 ic] = .ok c') ∧
    calls sqrt c [toCall tf (.C id n1 n2 0 ic)] = (c, some .circuit) := by
  refine ⟨⟨_, rfl⟩, ?_⟩
  simp [calls, call, toCall, Build.add]

/-- C207 refuted: the API takes the model of a diode or of a transistor for a switch, a netlist does not. -/
theorem C207_switch_refuted (c : Ckt ℚ) (id n1 n2 sn1 sn2 m : Line) (k : MKind) (hk : k ≠ .sw) (hm : c.model (s m) = some k) :
    build sqrt tf c [.S id n1 n2 sn1 sn2 m] = .error .parse ∧
    ∃ c', calls sqrt c [toCall tf (.S id n1 n2 sn1 sn2 m)] = (c', none) := by
  have hm' : ((((c.addNode (s n1)).1.addNode (s n2)).1.addNode (s sn1)).1.addNode (s sn2)).1.model (s m) = some k := hm
  constructor
  · simp only [build, place]
    rw [hm']
    cases k <;> first | rfl | exact absurd rfl hk
  · simp only [calls, call, toCall, Build.add, Ckt.addNodes4, Ckt.addNodes2]
    rw [hm']
    exact ⟨_, rfl⟩

/-- C207: a circuit of elements without models made through the API, printed (`str(circ)`) and read as a netlist is the same circuit
again, down to the numbers of the nodes. What is missing is said at `C167_elements_partial`: names in capitals, time functions. -/
theorem C207_round_trip_partial (fmt : ℚ → Line) (shown) (pm) (hpm : pm [] = .ok []) (title : Line) (els : List PElem)
    (h : CircStr.AllPlain fmt shown els) (hp : ∀ p ∈ els, Common [] p) (c' : Ckt ℚ)
    (hc : calls sqrt {} (els.map (toCall tf)) = (c', none)) :
    ∃ r, CircStr.readCirc pm (CircStr.circStr fmt shown title els) = .ok r ∧ build sqrt tf {} r.2 = .ok c' := by
  obtain ⟨t, ht⟩ := CircStr.C167_elements_partial fmt shown pm hpm title els h
  exact ⟨_, ht, (C207_same_partial {} els hp c').2 hc⟩

/-- C207: the sources of a netlist follow their time function, if there is one, and have the AC value that was given, and those made by
the calls do as well. -/
theorem C207_sources (c : Ckt ℚ) (id n1 n2 : Line) (dc ac : Option ℚ) (fn : Option (Line × List (String × Option Val))) :
    ∃ c' i j src, build sqrt tf c [.V id n1 n2 dc ac fn] = .ok c' ∧
      calls sqrt c [toCall tf (.V id n1 n2 dc ac fn)] = (c', none) ∧ c'.elems = c.elems ++ [.V (String.ofList id) i j src] ∧
      src.dc = dc ∧ (src.timeDep = true ↔ fn.isSome) ∧ src.fn = fn.map tf ∧
      (∀ a, ac = some a → a ≠ 0 → src.ac = some a) := by
  obtain ⟨c', h⟩ : ∃ c', build sqrt tf c [.V id n1 n2 dc ac fn] = .ok c' := ⟨_, rfl⟩
  have h2 := (C207_same_partial (sqrt := sqrt) (tf := tf) c [.V id n1 n2 dc ac fn] (by simp [Common]) c').1 h
  injection h with h
  refine ⟨c', _, _, source tf dc ac fn, by rw [← h]; rfl, h2, by rw [← h]; rfl, ?_⟩
  cases fn <;> simp +contextual [source, phasor]

/-- an example: two coupled coils, a source, a diode and a switch; nodes appear in the order of the lines -/
def demo : List PElem :=
  [.V "v1".toList "in".toList "0".toList (some 1) none none, .L "l1".toList "in".toList "a".toList 4 none,
    .L "l2".toList "b".toList "0".toList 9 none, .K "k1".toList "l1".toList "l2".toList (1 / 2),
    .D "d1".toList "a".toList "0".toList "dm".toList none none false,
    .S "s1".toList "b".toList "0".toList "a".toList "0".toList "sm".toList]

def demoModels : Ckt ℚ := { models := [("dm", .diode), ("sm", .sw)] }

example : (∀ p ∈ demo, Common demoModels.models p) ∧
    ((build (fun x => if x = 36 then some 6 else none) (fun _ _ => 0) demoModels demo).toOption.map fun c =>
      (c.elems.length, c.nodes.dict.get (.ext "b"), c.elems.map fun e => e.id)) =
      some (6, some (.int 3), ["v1", "l1", "l2", "k1", "d1", "s1"]) := by
  refine ⟨?_, by decide +kernel⟩
  simp [demo, Common, demoModels, s]

/-- errors: an inductor that does not exist -/
example : build (fun _ => none) tf demoModels [.K "k1".toList "l1".toList "l2".toList (1 / 2)] = .error .parse ∧
    (calls (fun _ => none) demoModels [toCall tf (.K "k1".toList "l1".toList "l2".toList (1 / 2))]).2 = some .value := ⟨rfl, rfl⟩

/-- the circuit of `CircStr.demo` meets the hypotheses of the round trip -/
example : (∀ p ∈ CircStr.demo, Common [] p) ∧
    (calls (fun _ => some 1) {} (CircStr.demo.map (toCall fun _ _ => 0))).2.isNone = true := by
  refine ⟨?_, by decide +kernel⟩
  simp [CircStr.demo, Common]

end Verif.NetApi
