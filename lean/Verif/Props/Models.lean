import Verif.Model.Models
import Verif.Props.Parse
import Verif.Props.OpInfo

/-!
Properties C153 (device models are kept under their labels, from the API and from netlists alike) and C154 (printed
diode models read back).
-/

namespace Verif.Models
open Verif.Netlist Verif.Small Verif.Parse Verif.OpInfo

variable {P : Type}

/-! ### What a call of a constructor depends on -/

/-- The outcome of a declaration: an unknown keyword is a `TypeError`, else the constructor decides; the name is the
label. -/
def made (ctor : Kind → Args → Except Err P) (k : Kind) (label : Line) (b : Args) : Except Err (Obj P) :=
  if b.any fun p => !k.accepts p.1 then .error .type
  else match ctor k b with
    | .error e => .error e
    | .ok p => .ok ⟨k, label, p⟩

theorem any_others (k : Kind) (a : Args) :
    (a.any fun p => !k.accepts p.1) = (others a).any fun p => !k.accepts p.1 := by
  unfold others
  induction a with
  | nil => rfl
  | cons p a ih =>
    by_cases h : p.1 = nameKey
    · have hk : k.accepts p.1 = true := by simp [Kind.accepts, h]
      rw [List.filter_cons_of_neg (by simp [h]), List.any_cons, hk, ih]
      rfl
    · rw [List.filter_cons_of_pos (by simp [h]), List.any_cons, List.any_cons, ih]

theorem others_dput (a : Args) (v : Val) : others (dput a nameKey v) = others a := by
  unfold others
  induction a with
  | nil => simp [dput]
  | cons p a ih =>
    obtain ⟨k, w⟩ := p
    by_cases h : k = nameKey
    · simp [dput, h]
    · simp only [dput, if_neg h]
      rw [List.filter_cons_of_pos (by simp [h]), List.filter_cons_of_pos (by simp [h]), ih]

theorem call_made (ctor : Kind → Args → Except Err P) (k : Kind) (label : Line) (a : Args)
    (h : k.needsName = true → (dget a nameKey).isSome = true) :
    (match call ctor k a with
      | .error e => Except.error e
      | .ok o => .ok { o with name := label }) = made ctor k label (others a) := by
  unfold call made
  rw [any_others]
  split_ifs with h1 h2
  · rfl
  · obtain ⟨h3, h4⟩ := Bool.and_eq_true_iff.1 h2
    have := h h3
    cases hd : dget a nameKey <;> simp_all
  · cases ctor k (others a) <;> rfl

theorem addModel_eq (ctor : Kind → Args → Except Err P) (ms : Store P) (t label : Line) (a : Args) :
    ((addModel ctor ms t label a).models, (addModel ctor ms t label a).err) =
      match apiKind t with
      | none => (ms, some .circuit)
      | some k => match made ctor k label (others a) with
        | .error e => (ms, some e)
        | .ok o => (dput ms label o, none) := by
  set a' := if (dget a nameKey).isNone then dput a nameKey (.text label) else a with ha
  have ho : others a' = others a := by
    rw [ha]; split_ifs
    · exact others_dput a _
    · rfl
  have hs : (dget a' nameKey).isSome = true := by
    rw [ha]; split_ifs with h
    · rw [dget_dput]; simp
    · cases hd : dget a nameKey <;> simp_all
  unfold addModel
  rw [← ha]
  cases hk : apiKind t with
  | none => rfl
  | some k =>
    have := call_made ctor k label a' (fun _ => hs)
    rw [ho] at this
    simp only [← this]
    cases call ctor k a' <;> rfl

/-! ### C153: the API -/

/-- C153: `add_model` succeeds exactly when the type is known, every keyword is one of that type, and the
constructor accepts the values. Then the label leads to a model of that type and that name with these parameters, and
all other labels lead where they did. -/
theorem C153_add (ctor : Kind → Args → Except Err P) (ms : Store P) (t label : Line) (a : Args) :
    ((addModel ctor ms t label a).err = none ↔
      ∃ k p, apiKind t = some k ∧ (∀ q ∈ a, q.1 = nameKey ∨ String.ofList q.1 ∈ k.keys) ∧
        ctor k (others a) = .ok p) ∧
    ∀ k p, apiKind t = some k → ctor k (others a) = .ok p → (addModel ctor ms t label a).err = none →
      ∀ l, dget (addModel ctor ms t label a).models l = if label = l then some ⟨k, label, p⟩ else dget ms l := by
  have he := addModel_eq ctor ms t label a
  have hacc : ∀ k : Kind, ((others a).any fun p => !k.accepts p.1) = false ↔
      ∀ q ∈ a, q.1 = nameKey ∨ String.ofList q.1 ∈ k.keys := by
    intro k
    rw [← any_others]
    simp only [Kind.accepts, List.any_eq_false, Bool.not_eq_true', Bool.or_eq_false_iff, decide_eq_false_iff_not,
      List.contains_eq_mem, not_and, not_not]
    refine forall₂_congr fun q _ => ?_
    tauto
  cases hk : apiKind t with
  | none =>
    rw [hk] at he
    simp only [Prod.mk.injEq] at he
    exact ⟨by simp [he.2], by simp⟩
  | some k =>
    rw [hk] at he
    simp only at he
    by_cases hb : ((others a).any fun p => !k.accepts p.1) = true
    · have hm : made ctor k label (others a) = .error .type := by unfold made; rw [if_pos hb]
      rw [hm] at he
      simp only [Prod.mk.injEq] at he
      refine ⟨⟨fun h => by (rw [he.2] at h; cases h), ?_⟩, fun k' p' _ _ h => by (rw [he.2] at h; cases h)⟩
      rintro ⟨k', p, h1, h2, -⟩
      cases h1
      rw [(hacc k).2 h2] at hb
      cases hb
    · have hb' := (Bool.not_eq_true _).mp hb
      cases hc : ctor k (others a) with
      | error e =>
        have hm : made ctor k label (others a) = .error e := by unfold made; rw [if_neg hb, hc]
        rw [hm] at he
        simp only [Prod.mk.injEq] at he
        refine ⟨⟨fun h => by (rw [he.2] at h; cases h), ?_⟩, fun k' p' _ _ h => by (rw [he.2] at h; cases h)⟩
        rintro ⟨k', p, h1, -, h3⟩
        cases h1
        rw [hc] at h3; cases h3
      | ok p =>
        have hm : made ctor k label (others a) = .ok ⟨k, label, p⟩ := by unfold made; rw [if_neg hb, hc]
        rw [hm] at he
        simp only [Prod.mk.injEq] at he
        refine ⟨⟨fun _ => ⟨k, p, rfl, (hacc k).1 hb', hc⟩, fun _ => he.2⟩, ?_⟩
        intro k' p' h1 h2 _ l
        cases h1
        rw [hc] at h2
        cases h2
        rw [he.1, dget_dput]

/-- C153: diode and switch models cannot be made without a name, transistor models get a name of their own. -/
theorem C153_unnamed (ctor : Kind → Args → Except Err P) (k : Kind) (a : Args) (hn : dget a nameKey = none)
    (ha : ∀ p ∈ a, k.accepts p.1 = true) :
    (k = .diode ∨ k = .sw → call ctor k a = .error .type) ∧
    ∀ p, ctor k (others a) = .ok p → (k = .ekv → call ctor k a = .ok ⟨k, "model_ekv0".toList, p⟩) ∧
      (k = .mosq → call ctor k a = .ok ⟨k, "model_mosq0".toList, p⟩) := by
  have h : ¬ (a.any fun p => !k.accepts p.1) = true := by
    simp only [List.any_eq_true, not_exists, not_and]
    intro p hp
    simp [ha p hp]
  have hd : nameOf k a = k.defaultName := by rw [nameOf, hn]
  unfold call
  rw [if_neg h, hn, hd]
  refine ⟨?_, fun p hp => ⟨?_, ?_⟩⟩
  · rintro (rfl | rfl) <;> rfl
  · intro hk
    have h1 : k.needsName = false := by rw [hk]; rfl
    have h2 : k.defaultName = "model_ekv0".toList := by rw [hk]; rfl
    rw [h1, hp, h2]
    rfl
  · intro hk
    have h1 : k.needsName = false := by rw [hk]; rfl
    have h2 : k.defaultName = "model_mosq0".toList := by rw [hk]; rfl
    rw [h1, hp, h2]
    rfl

example : dget [("KP".toList, Val.num 2)] nameKey = none ∧ ∀ p ∈ [("KP".toList, Val.num 2)], Kind.ekv.accepts p.1 = true := by decide +kernel

/-- C153: a call that raises leaves the models as they were; an unknown type is a `CircuitError`. -/
theorem C153_failed (ctor : Kind → Args → Except Err P) (ms : Store P) (t label : Line) (a : Args) :
    (∀ e, (addModel ctor ms t label a).err = some e → (addModel ctor ms t label a).models = ms) ∧
    (apiKind t = none → (addModel ctor ms t label a).err = some .circuit) := by
  have he := addModel_eq ctor ms t label a
  cases hk : apiKind t with
  | none =>
    rw [hk] at he
    simp only [Prod.mk.injEq] at he
    exact ⟨fun _ _ => he.1, fun _ => he.2⟩
  | some k =>
    rw [hk] at he
    simp only at he
    refine ⟨?_, by simp⟩
    intro e h
    cases hm : made ctor k label (others a) with
    | error e' => rw [hm] at he; simp only [Prod.mk.injEq] at he; exact he.1
    | ok o => rw [hm] at he; simp only [Prod.mk.injEq] at he; rw [he.2] at h; cases h

/-- C153: the dictionary of parameters, which `add_model` changes, can be used again for another model. -/
theorem C153_reuse (ctor ctor' : Kind → Args → Except Err P) (ms ms' : Store P) (t t' label label' : Line) (a : Args) :
    (addModel ctor ms t label (addModel ctor' ms' t' label' a).args).models = (addModel ctor ms t label a).models ∧
    (addModel ctor ms t label (addModel ctor' ms' t' label' a).args).err = (addModel ctor ms t label a).err := by
  have ho : others (addModel ctor' ms' t' label' a).args = others a := by
    have : (addModel ctor' ms' t' label' a).args =
        if (dget a nameKey).isNone then dput a nameKey (.text label') else a := by
      unfold addModel
      simp only
      split
      · rfl
      · split <;> rfl
    rw [this]
    split_ifs
    · exact others_dput a _
    · rfl
  have h1 := addModel_eq ctor ms t label (addModel ctor' ms' t' label' a).args
  have h2 := addModel_eq ctor ms t label a
  rw [ho, ← h2] at h1
  simpa using h1

theorem dget_filter {κ ν : Type} [DecidableEq κ] (d : List (κ × ν)) (k k' : κ) :
    dget (d.filter fun p => p.1 ≠ k) k' = if k' = k then none else dget d k' := by
  induction d with
  | nil => simp [dget]
  | cons p d ih =>
    obtain ⟨a, v⟩ := p
    by_cases h : a = k
    · subst h
      have : ((a, v) :: d).filter (fun p => p.1 ≠ a) = d.filter fun p => p.1 ≠ a := by simp
      rw [this, ih]
      by_cases h' : k' = a
      · simp [h']
      · simp [h', dget, Ne.symm h']
    · have : ((a, v) :: d).filter (fun p => p.1 ≠ k) = (a, v) :: d.filter fun p => p.1 ≠ k := by simp [h]
      rw [this]
      by_cases h' : a = k'
      · subst h'; simp [dget, h]
      · simp only [dget, if_neg h', ih]

/-- C153: `remove_model` removes this model and nothing else. -/
theorem C153_remove (ms : Store P) (label l : Line) :
    dget (removeModel ms label) l = if l = label then none else dget ms l := dget_filter ms label l

/-! ### C153: netlists -/

/-- A model declaration: type, label, parameters as written. -/
structure Decl where
  t : Line
  label : Line
  pars : List (Line × Line)

/-- The words of a declaration, with a comment at the end. -/
def Decl.text (d : Decl) (first : Line) (comment : List Line) : List Line :=
  first :: d.t :: d.label :: (d.pars.map (fun p => p.1 ++ '=' :: p.2) ++ comment)

structure Decl.Ok (d : Decl) (first : Line) (comment : List Line) : Prop where
  words : ∀ w ∈ d.text first comment, IsWord w
  noeq : ∀ p ∈ d.pars, '=' ∉ p.1 ∧ '=' ∉ p.2
  nostar : ∀ p ∈ d.pars, p.1.head? ≠ some '*'
  reads : ∀ p ∈ d.pars, (convert p.2 .float).isSome = true
  comment : ∀ w ∈ comment.head?, w.head? = some '*'

/-- The parameters of a declaration as a Python dictionary: names in upper case; a later value replaces an earlier
one. -/
def Decl.args (d : Decl) : Args :=
  d.pars.foldl (fun a p => dput a (p.1.map Char.toUpper) ((convert p.2 .float).getD (.num 0))) []

/-- The name of the type in the API. -/
def apiName (t : Line) : Line := if t = "d".toList then "diode".toList else t

theorem lineKind_api (t : Line) : lineKind t = apiKind (apiName t) := by
  unfold lineKind apiKind apiName
  by_cases h : t = "d".toList
  · subst h; decide
  · simp only [h, or_false, if_false]

theorem lineArgs_eq (pars : List (Line × Line)) (comment : List Line)
    (hw : ∀ p ∈ pars, ∀ c ∈ p.1 ++ '=' :: p.2, c.isWhitespace = false)
    (hn : ∀ p ∈ pars, '=' ∉ p.1 ∧ '=' ∉ p.2) (hs : ∀ p ∈ pars, p.1.head? ≠ some '*')
    (hr : ∀ p ∈ pars, (convert p.2 .float).isSome = true) (hc : ∀ w ∈ comment.head?, w.head? = some '*') (a : Args) :
    lineArgs (pars.map (fun p => p.1 ++ '=' :: p.2) ++ comment) a =
      .ok (pars.foldl (fun a p => dput a (p.1.map Char.toUpper) ((convert p.2 .float).getD (.num 0))) a) := by
  induction pars generalizing a with
  | nil =>
    cases comment with
    | nil => rfl
    | cons w r =>
      have := hc w (by simp)
      simp [lineArgs, this]
  | cons p pars ih =>
    have hp := hn p (by simp)
    have h1 : (p.1 ++ '=' :: p.2).head? ≠ some '*' := by
      have := hs p (by simp)
      cases hq : p.1 with
      | nil => simp
      | cons c r => rw [hq] at this; simpa using this
    obtain ⟨v, hv⟩ := Option.isSome_iff_exists.1 (hr p (by simp))
    have h2 : paramValue (p.1 ++ '=' :: p.2) .float = some (p.1, v) := by
      rw [C72_split p.1 p.2 hp.1 hp.2 (strip_word _ (hw p (by simp))), hv]
      rfl
    simp only [List.map_cons, List.cons_append, List.foldl_cons]
    unfold lineArgs
    rw [if_neg h1, h2]
    simp only
    rw [ih (fun q hq => hw q (List.mem_cons_of_mem _ hq)) (fun q hq => hn q (List.mem_cons_of_mem _ hq))
      (fun q hq => hs q (List.mem_cons_of_mem _ hq)) (fun q hq => hr q (List.mem_cons_of_mem _ hq)), hv]
    rfl

/-- What the API does, read as the result of a line: an unknown type is a `NetlistParseError`. -/
def viaApi (ctor : Kind → Args → Except Err P) (ms : Store P) (d : Decl) : Except Err (Store P) :=
  match (addModel ctor ms (apiName d.t) d.label d.args).err with
  | none => .ok (addModel ctor ms (apiName d.t) d.label d.args).models
  | some e => .error (if (apiKind (apiName d.t)).isNone then .parse else e)

/-- C153: a `.model` line, with parentheses anywhere and a comment at the end, does what `add_model` does with the
same type, label and parameters. -/
theorem C153_netlist (ctor : Kind → Args → Except Err P) (ms : Store P) (d : Decl) (first : Line)
    (comment : List Line) (h : d.Ok first comment) (l : Line)
    (hl : (l.filter fun c => c ≠ '(' ∧ c ≠ ')') = ((d.text first comment).intersperse [' ']).flatten) :
    modelLine ctor ms l = viaApi ctor ms d := by
  have ht : tokens l = d.text first comment := by
    unfold tokens
    rw [hl, C60_words _ h.words]
  have ha : lineArgs (d.pars.map (fun p => p.1 ++ '=' :: p.2) ++ comment) [] = .ok d.args := by
    apply lineArgs_eq _ _ _ h.noeq h.nostar h.reads h.comment
    intro p hp
    exact (h.words _ (by
      unfold Decl.text
      simp only [List.mem_cons, List.mem_append, List.mem_map]
      exact .inr (.inr (.inr (.inl ⟨p, hp, rfl⟩))))).2
  unfold modelLine viaApi
  rw [ht]
  unfold Decl.text
  simp only [ha]
  rw [lineKind_api]
  have he := addModel_eq ctor ms (apiName d.t) d.label d.args
  cases hk : apiKind (apiName d.t) with
  | none =>
    rw [hk] at he
    simp only [Prod.mk.injEq] at he
    simp [he.2]
  | some k =>
    rw [hk] at he
    simp only
    set a' := if k.needsName = true then dput d.args nameKey (.text d.label) else d.args with ha'
    have ho : others a' = others d.args := by
      rw [ha']; split_ifs
      · exact others_dput _ _
      · rfl
    have hm := call_made ctor k d.label a' (fun hn => by rw [ha', if_pos hn, dget_dput]; simp)
    rw [ho] at hm
    simp only [← hm] at he
    cases hcall : call ctor k a' with
    | error e =>
      rw [hcall] at he
      simp only [Prod.mk.injEq] at he
      simp [he.2]
    | ok o =>
      rw [hcall] at he
      simp only [Prod.mk.injEq] at he
      simp [he.1, he.2]

theorem modelLine_names (ctor : Kind → Args → Except Err P) (ms ms' : Store P) (l : Line)
    (h : modelLine ctor ms l = .ok ms') :
    ∃ label o, ((tokens l)[2]? = some label ∧ o.name = label) ∧ ms' = dput ms label o := by
  unfold modelLine at h
  split at h
  · rename_i a t label rest ht
    split at h
    · cases h
    · split at h
      · cases h
      · split at h
        · cases h
        · rename_i o _
          cases h
          exact ⟨label, { o with name := label }, ⟨by rw [ht]; rfl, rfl⟩, rfl⟩
  · cases h

/-- C153: after reading the `.model` lines, the labels that lead to a model are those before and the third words of
the lines, and every model has its label as name. -/
theorem C153_labels (ctor : Kind → Args → Except Err P) (ls : List Line) (ms ms' : Store P)
    (h0 : ∀ l o, dget ms l = some o → o.name = l) (h : parseModels ctor ms ls = .ok ms') :
    (∀ l, (dget ms' l).isSome = true ↔ (dget ms l).isSome = true ∨ ∃ x ∈ ls, (tokens x)[2]? = some l) ∧
    ∀ l o, dget ms' l = some o → o.name = l := by
  induction ls generalizing ms with
  | nil =>
    cases h
    exact ⟨by simp, h0⟩
  | cons x ls ih =>
    unfold parseModels at h
    cases hx : modelLine ctor ms x with
    | error e => rw [hx] at h; cases h
    | ok m1 =>
      rw [hx] at h
      obtain ⟨label, o, ⟨h1, h2⟩, rfl⟩ := modelLine_names ctor ms m1 x hx
      obtain ⟨i1, i2⟩ := ih _ (by
        intro l o' hl
        rw [dget_dput] at hl
        split_ifs at hl with e
        · cases hl; exact h2.trans e
        · exact h0 l o' hl) h
      refine ⟨fun l => ?_, i2⟩
      rw [i1 l, dget_dput]
      by_cases e : label = l
      · subst e; simp [h1]
      · simp [e, h1]

/-- C153: a model line with less than three words, or with an unknown type, is refused as an error of the netlist. -/
theorem C153_short (ctor : Kind → Args → Except Err P) (ms : Store P) (l : Line) :
    ((tokens l).length < 3 → modelLine ctor ms l = .error .parse) ∧
    ∀ w t label rest a, tokens l = w :: t :: label :: rest → lineArgs rest [] = .ok a →
      t ∉ ["ekv".toList, "mosq".toList, "diode".toList, "d".toList, "sw".toList] → modelLine ctor ms l = .error .parse := by
  constructor
  · intro h
    unfold modelLine
    split
    · rename_i e; rw [e] at h; simp only [List.length_cons] at h; omega
    · rfl
  · intro w t label rest a h1 h2 h3
    simp only [List.mem_cons, List.not_mem_nil, or_false, not_or] at h3
    unfold modelLine
    rw [h1]
    simp only [h2, lineKind, h3.1, h3.2.1, h3.2.2.1, h3.2.2.2.1, h3.2.2.2.2, or_self, if_false]

/-- C153: a misspelled parameter in a netlist is not a `NetlistParseError` but a `TypeError`, which `parse_circuit`
does not expect. -/
theorem C153_misspelled_refuted (ctor : Kind → Args → Except Err P) :
    parseModels ctor [] [".model diode dm isat=1".toList] = .error .type := by
  have h1 : tokens ".model diode dm isat=1".toList =
      [".model".toList, "diode".toList, "dm".toList, "isat=1".toList] := by decide +kernel
  have h2 : lineArgs ["isat=1".toList] [] = .ok [("ISAT".toList, .num 1)] := by decide +kernel
  unfold parseModels modelLine
  rw [h1]
  simp only [h2]
  have h3 : lineKind "diode".toList = some .diode := by decide +kernel
  rw [h3]
  simp only
  have h4 : call ctor .diode (if Kind.diode.needsName = true then
      dput [("ISAT".toList, Val.num 1)] nameKey (.text "dm".toList) else [("ISAT".toList, .num 1)]) = .error .type := by
    unfold call
    rw [if_pos (by decide +kernel)]
  rw [h4]

/-- C153: parentheses are removed, not read as separators: `dm(is=1)` declares a model `dmis=1`, and there is no
model `dm`. -/
theorem C153_glued (ctor : Kind → Args → Except Err P) (p : P) (h : ctor .diode [] = .ok p) :
    parseModels ctor [] [".model d dm(is=1)".toList] =
      .ok [("dmis=1".toList, ⟨.diode, "dmis=1".toList, p⟩)] := by
  have h1 : tokens ".model d dm(is=1)".toList = [".model".toList, "d".toList, "dmis=1".toList] := by decide +kernel
  have h3 : lineKind "d".toList = some .diode := by decide +kernel
  have h4 : (dput ([] : Args) nameKey (.text "dmis=1".toList)).any (fun p => !Kind.diode.accepts p.1) = false := by
    decide +kernel
  have h5 : others (dput ([] : Args) nameKey (.text "dmis=1".toList)) = [] := by decide +kernel
  have h6 : (dget (dput ([] : Args) nameKey (.text "dmis=1".toList)) nameKey).isNone = false := by decide +kernel
  have h7 : Kind.diode.needsName = true := rfl
  unfold parseModels modelLine
  rw [h1]
  simp only [lineArgs, h3, h7, if_true]
  unfold call
  rw [h4, h5, h6, h]
  rfl

/-! ### Examples -/

/-- a constructor that keeps the parameters -/
def keep : Kind → Args → Except Err Args := fun _ a => .ok a

example : (addModel keep [] "diode".toList "d1".toList [("IS".toList, .num 1)]).err = none ∧
    (addModel keep [] "Diode".toList "d1".toList [("IS".toList, .num 1)]).err = some .circuit ∧
    (addModel keep [] "sw".toList "s1".toList [("IS".toList, .num 1)]).err = some .type := by decide +kernel

/-- the hypotheses of `C153_netlist` -/
def dec : Decl := ⟨"d".toList, "dm".toList, [("is".toList, "1p".toList), ("n".toList, "2".toList)]⟩

example : dec.Ok ".model".toList ["*".toList, "fast".toList] where
  words := by
    have : ∀ w ∈ dec.text ".model".toList ["*".toList, "fast".toList],
        w ≠ [] ∧ (w.all fun c => c.isWhitespace = false) = true := by decide +kernel
    intro w hw
    exact ⟨(this w hw).1, by simpa using (this w hw).2⟩
  noeq := by decide +kernel
  nostar := by decide +kernel
  reads := by decide +kernel
  comment := by simp

example : (".model d dm (is=1p n=2) * fast".toList.filter fun c => c ≠ '(' ∧ c ≠ ')') =
    ((dec.text ".model".toList ["*".toList, "fast".toList]).intersperse [' ']).flatten := by decide +kernel

example : viaApi keep [] dec = .ok [("dm".toList,
    ⟨.diode, "dm".toList, [("IS".toList, .num (1 / 10 ^ 12)), ("N".toList, .num 2)]⟩)] := by decide +kernel

/-! ### C154: the diode model -/

/-- The printed number reads back as the number, and is a word without `=` and parentheses. -/
structure Reads (fmt : Num → Line) (x : Num) : Prop where
  reads : ∃ v, convert (fmt x) .float = some v ∧ toFloat v = .ok x
  word : IsWord (fmt x)
  clean : '=' ∉ fmt x ∧ '(' ∉ fmt x ∧ ')' ∉ fmt x

theorem diodeAttrs_value (a : Args) (ks : List String) (h : ∀ key ∈ ks, ∃ x, diodeValue a key = .ok x) :
    ∃ l, diodeAttrs a ks = .ok l ∧ ∀ key ∈ ks, ∃ x, diodeValue a key = .ok x ∧ dget l key = some x := by
  induction ks with
  | nil => exact ⟨[], rfl, by simp⟩
  | cons k ks ih =>
    obtain ⟨l, h1, h2⟩ := ih fun key hk => h key (List.mem_cons_of_mem _ hk)
    obtain ⟨x, hx⟩ := h k (by simp)
    refine ⟨(k, x) :: l, by unfold diodeAttrs; rw [hx, h1], ?_⟩
    intro key hk
    by_cases e : k = key
    · subst e; exact ⟨x, hx, by simp [dget]⟩
    · obtain ⟨y, h3, h4⟩ := h2 key (by rcases List.mem_cons.1 hk with h | h; exacts [absurd h.symm e, h])
      exact ⟨y, h3, by simp [dget, e, h4]⟩

theorem dget_put_all {κ ν : Type} [DecidableEq κ] (ps : List (κ × ν)) (a : List (κ × ν)) (hn : (ps.map Prod.fst).Nodup)
    (k : κ) :
    (∀ v, (k, v) ∈ ps → dget (ps.foldl (fun a p => dput a p.1 p.2) a) k = some v) ∧
    (k ∉ ps.map Prod.fst → dget (ps.foldl (fun a p => dput a p.1 p.2) a) k = dget a k) := by
  induction ps generalizing a with
  | nil => simp
  | cons p ps ih =>
    obtain ⟨h1, h2⟩ := List.nodup_cons.1 hn
    obtain ⟨i1, i2⟩ := ih (dput a p.1 p.2) h2
    refine ⟨fun v hv => ?_, fun hk => ?_⟩
    · rcases List.mem_cons.1 hv with rfl | hv
      · simp only [List.foldl_cons]
        rw [i2 h1, dget_dput]
        simp
      · exact i1 v hv
    · simp only [List.map_cons, List.mem_cons, not_or] at hk
      simp only [List.foldl_cons]
      rw [i2 hk.2, dget_dput, if_neg (Ne.symm hk.1)]

theorem keys_put_all {κ ν : Type} [DecidableEq κ] (ps : List (κ × ν)) (a : List (κ × ν)) :
    ∀ q ∈ ps.foldl (fun a p => dput a p.1 p.2) a, q.1 ∈ a.map Prod.fst ∨ q.1 ∈ ps.map Prod.fst := by
  have hp : ∀ (a : List (κ × ν)) (k : κ) (v : ν), ∀ q ∈ dput a k v, q.1 ∈ a.map Prod.fst ∨ q.1 = k := by
    intro a k v
    induction a with
    | nil => simp [dput]
    | cons p a ih =>
      obtain ⟨k', v'⟩ := p
      intro q hq
      unfold dput at hq
      split_ifs at hq with e
      · rcases List.mem_cons.1 hq with rfl | hq
        · exact .inr e
        · exact .inl (List.mem_map.2 ⟨q, List.mem_cons_of_mem _ hq, rfl⟩)
      · rcases List.mem_cons.1 hq with rfl | hq
        · exact .inl (by simp)
        · rcases ih q hq with h | h
          · exact .inl (List.mem_cons_of_mem _ h)
          · exact .inr h
  induction ps generalizing a with
  | nil => intro q hq; exact .inl (List.mem_map.2 ⟨q, hq, rfl⟩)
  | cons p ps ih =>
    intro q hq
    rcases ih _ q hq with h | h
    · obtain ⟨r, hr, e⟩ := List.mem_map.1 h
      rcases hp a p.1 p.2 r hr with h | h
      · exact .inl (e ▸ h)
      · exact .inr (by rw [← e, h]; simp)
    · exact .inr (List.mem_cons_of_mem _ h)

/-- the value that is printed for a parameter -/
def attr (o : Obj (List (String × Num))) (key : String) : Num := (dget o.attrs key).getD (.fin 0)

/-- the declaration that is printed -/
def printedDecl (fmt : Num → Line) (o : Obj (List (String × Num))) : Decl :=
  ⟨"diode".toList, o.name, printed.map fun key => (key.toList, fmt (attr o key))⟩

theorem printed_facts : (∀ key ∈ printed, key.toList.map Char.toUpper = key.toList ∧ '=' ∉ key.toList ∧
      key.toList.head? ≠ some '*' ∧ key.toList ≠ nameKey ∧ '(' ∉ key.toList ∧ ')' ∉ key.toList ∧
      key ∈ Kind.diode.keys ∧ (key.toList.all fun c => c.isWhitespace = false) = true) ∧
    (printed.map String.toList).Nodup := by decide +kernel

theorem printed_ok (fmt : Num → Line) (o : Obj (List (String × Num))) (hn : IsWord o.name)
    (hf : ∀ key ∈ printed, Reads fmt (attr o key)) : (printedDecl fmt o).Ok ".model".toList [] where
  words := by
    intro w hw
    simp only [Decl.text, printedDecl, List.map_map, List.append_nil, List.mem_cons, List.mem_map] at hw
    rcases hw with rfl | rfl | rfl | ⟨key, hk, rfl⟩
    · exact ⟨by decide, by decide⟩
    · exact ⟨by decide, by decide⟩
    · exact hn
    · refine ⟨by simp, ?_⟩
      intro c hc
      simp only [Function.comp, List.mem_append, List.mem_cons] at hc
      rcases hc with hc | rfl | hc
      · have := (printed_facts.1 key hk).2.2.2.2.2.2.2
        rw [List.all_eq_true] at this
        simpa using this c hc
      · decide
      · exact (hf key hk).word.2 c hc
  noeq := by
    intro p hp
    obtain ⟨key, hk, rfl⟩ := List.mem_map.1 hp
    exact ⟨(printed_facts.1 key hk).2.1, (hf key hk).clean.1⟩
  nostar := by
    intro p hp
    obtain ⟨key, hk, rfl⟩ := List.mem_map.1 hp
    exact (printed_facts.1 key hk).2.2.1
  reads := by
    intro p hp
    obtain ⟨key, hk, rfl⟩ := List.mem_map.1 hp
    obtain ⟨v, hv, -⟩ := (hf key hk).reads
    simp [hv]
  comment := by simp

theorem dget_others (a : Args) (k : Line) (h : k ≠ nameKey) : dget (others a) k = dget a k := by
  unfold others
  rw [dget_filter, if_neg h]

/-- C154: the line printed for a diode model is read as a diode model of the same name. All parameters that are
printed have their values, except the temperature: it is printed in Kelvin and read as Celsius. The two parameters
that are not printed have their defaults. -/
theorem C154_read_back_partial (ctor : Kind → Args → Except Err (List (String × Num)))
    (hd : ∀ a, ctor .diode a = diodeCtor a) (ms : Store (List (String × Num))) (fmt : Num → Line)
    (o : Obj (List (String × Num))) (hn : IsWord o.name) (hp : '(' ∉ o.name ∧ ')' ∉ o.name)
    (hf : ∀ key ∈ printed, Reads fmt (attr o key)) :
    ∃ l, modelLine ctor ms (printDiode fmt o) = .ok (dput ms o.name ⟨.diode, o.name, l⟩) ∧
      (∀ key ∈ printed, key ≠ "TEMP" → dget l key = some (attr o key)) ∧
      dget l "TEMP" = some (attr o "TEMP").kelvin ∧
      dget l "NBV" = some (diodeDefault "NBV") ∧ dget l "IKF" = some (diodeDefault "IKF") := by
  have hok := printed_ok fmt o hn hf
  have hl : ((printDiode fmt o).filter fun c => c ≠ '(' ∧ c ≠ ')') =
      (((printedDecl fmt o).text ".model".toList []).intersperse [' ']).flatten := by
    have e : printDiode fmt o = (((printedDecl fmt o).text ".model".toList []).intersperse [' ']).flatten := by
      unfold printDiode Decl.text printedDecl
      simp only [List.map_map, List.append_nil]
      rfl
    rw [← e, List.filter_eq_self]
    intro c hc
    rw [e] at hc
    obtain ⟨w, hw, hc⟩ := List.mem_flatten.1 hc
    have hw' : w = [' '] ∨ w ∈ (printedDecl fmt o).text ".model".toList [] := by
      have key : ∀ (L : List Line), w ∈ L.intersperse [' '] → w = [' '] ∨ w ∈ L := by
        intro L
        induction L with
        | nil => simp
        | cons x L ih =>
          cases L with
          | nil => intro h; exact .inr (by simpa using h)
          | cons y L =>
            intro h
            simp only [List.intersperse, List.mem_cons] at h
            rcases h with h | h | h
            · exact .inr (by simp [h])
            · exact .inl h
            · rcases ih h with h | h
              · exact .inl h
              · exact .inr (List.mem_cons_of_mem _ h)
      exact key _ hw
    have hgood : '(' ∉ w ∧ ')' ∉ w := by
      rcases hw' with rfl | hw'
      · decide
      · simp only [Decl.text, printedDecl, List.map_map, List.append_nil, List.mem_cons, List.mem_map] at hw'
        rcases hw' with rfl | rfl | rfl | ⟨key, hk, rfl⟩
        · decide
        · decide
        · exact hp
        · have hq := (printed_facts.1 key hk).2.2.2.2
          have hr := (hf key hk).clean
          simp only [Function.comp, List.mem_append, List.mem_cons, not_or]
          exact ⟨⟨hq.1, by decide, hr.2.1⟩, hq.2.1, by decide, hr.2.2⟩
    simp only [decide_eq_true_eq]
    exact ⟨fun e => hgood.1 (e ▸ hc), fun e => hgood.2 (e ▸ hc)⟩
  rw [C153_netlist ctor ms _ _ _ hok _ hl]
  -- the arguments
  set a := (printedDecl fmt o).args with ha
  have ha2 : a = (printed.map fun key => (key.toList, (convert (fmt (attr o key)) .float).getD (.num 0))).foldl
      (fun a p => dput a p.1 p.2) [] := by
    rw [ha]
    unfold Decl.args printedDecl
    simp only [List.foldl_map]
    have : ∀ (L : List String) (b : Args), (∀ key ∈ L, key ∈ printed) →
        L.foldl (fun a key => dput a (key.toList.map Char.toUpper) ((convert (fmt (attr o key)) .float).getD (.num 0))) b =
        L.foldl (fun a key => dput a key.toList ((convert (fmt (attr o key)) .float).getD (.num 0))) b := by
      intro L
      induction L with
      | nil => intro b _; rfl
      | cons k L ih =>
        intro b hL
        simp only [List.foldl_cons]
        rw [(printed_facts.1 k (hL k (by simp))).1, ih _ fun key hk => hL key (List.mem_cons_of_mem _ hk)]
    exact this printed [] fun _ h => h
  have hnd : ((printed.map fun key => (key.toList, (convert (fmt (attr o key)) .float).getD (.num 0))).map
      Prod.fst).Nodup := by
    rw [List.map_map]
    exact printed_facts.2
  have hval : ∀ key ∈ printed, diodeValue (others a) key = .ok (diodeGiven key (attr o key)) := by
    intro key hk
    obtain ⟨v, hv, hx⟩ := (hf key hk).reads
    have h1 := (dget_put_all _ [] hnd key.toList).1 v (List.mem_map.2 ⟨key, hk, by simp [hv]⟩)
    rw [← ha2] at h1
    unfold diodeValue
    rw [dget_others a _ (printed_facts.1 key hk).2.2.2.1, h1]
    simp only [hx]
  have hother : ∀ key : String, key.toList ∉ printed.map String.toList → key.toList ≠ nameKey →
      diodeValue (others a) key = .ok (diodeDefault key) := by
    intro key hk hne
    have h1 := (dget_put_all _ ([] : Args) hnd key.toList).2 (by rw [List.map_map]; exact hk)
    rw [← ha2] at h1
    unfold diodeValue
    rw [dget_others a _ hne, h1]
    rfl
  have hall : ∀ key ∈ Kind.diode.keys, ∃ x, diodeValue (others a) key = .ok x := by
    intro key hk
    by_cases h : key ∈ printed
    · exact ⟨_, hval key h⟩
    · have : key = "NBV" ∨ key = "IKF" := by
        revert key; decide +kernel
      rcases this with rfl | rfl
      · exact ⟨_, hother _ (by decide +kernel) (by decide +kernel)⟩
      · exact ⟨_, hother _ (by decide +kernel) (by decide +kernel)⟩
  obtain ⟨l, h1, h2⟩ := diodeAttrs_value (others a) Kind.diode.keys hall
  have hany : ((others a).any fun p => !Kind.diode.accepts p.1) = false := by
    rw [List.any_eq_false]
    intro q hq
    have hqa : q ∈ a := (List.mem_filter.1 hq).1
    rw [ha2] at hqa
    rcases keys_put_all _ _ q hqa with h | h
    · simp at h
    · rw [List.map_map] at h
      obtain ⟨key, hk, e⟩ := List.mem_map.1 h
      simp only [Function.comp] at e
      have hin := (printed_facts.1 key hk).2.2.2.2.2.2.1
      simp only [Kind.accepts, ← e, String.ofList_toList, List.contains_eq_mem, hin]
      simp
  have hmade : made ctor .diode o.name (others a) = .ok ⟨.diode, o.name, l⟩ := by
    unfold made
    rw [hany, hd]
    unfold diodeCtor
    rw [h1]
    rfl
  have hk : apiKind (apiName (printedDecl fmt o).t) = some .diode := by
    change apiKind (apiName "diode".toList) = _
    decide +kernel
  have he := addModel_eq ctor ms (apiName (printedDecl fmt o).t) (printedDecl fmt o).label a
  rw [hk] at he
  have hlab : (printedDecl fmt o).label = o.name := rfl
  rw [hlab] at he
  simp only [hmade, Prod.mk.injEq] at he
  have hget : ∀ key ∈ Kind.diode.keys, ∀ x, diodeValue (others a) key = .ok x → dget l key = some x := by
    intro key hk x hx
    obtain ⟨y, h3, h4⟩ := h2 key hk
    rw [hx] at h3
    cases h3
    exact h4
  refine ⟨l, ?_, ?_, ?_, ?_, ?_⟩
  · unfold viaApi
    rw [← ha, hlab, he.2]
    simp only [he.1]
  · intro key hkp hne
    rw [hget key (printed_facts.1 key hkp).2.2.2.2.2.2.1 _ (hval key hkp)]
    unfold diodeGiven
    rw [if_neg hne]
  · rw [hget "TEMP" (by decide +kernel) _ (hval "TEMP" (by decide +kernel))]
    rfl
  · exact hget _ (by decide +kernel) _ (hother _ (by decide +kernel) (by decide +kernel))
  · exact hget _ (by decide +kernel) _ (hother _ (by decide +kernel) (by decide +kernel))

/-- C154: so the temperature never reads back. -/
theorem C154_temperature_refuted (x : ℚ) : (Num.fin x).kelvin ≠ .fin x := by
  unfold Num.kelvin celsius2Kelvin
  intro h
  injection h with h
  linarith

/-- C154: models that differ in `NBV` or `IKF` only are printed alike. -/
theorem C154_hidden_refuted (fmt : Num → Line) (name : Line) (l : List (String × Num)) (x y : Num) :
    printDiode fmt ⟨.diode, name, ("NBV", x) :: l⟩ = printDiode fmt ⟨.diode, name, ("NBV", y) :: l⟩ ∧
    printDiode fmt ⟨.diode, name, ("IKF", x) :: l⟩ = printDiode fmt ⟨.diode, name, ("IKF", y) :: l⟩ := by
  constructor <;> simp [printDiode, printed, dget]

/-- C154: giving the default temperature is not the same as giving none: the default is not converted to Kelvin. -/
theorem C154_default_refuted :
    (diodeValue [] "TEMP", diodeValue [("TEMP".toList, .num (2685 / 100))] "TEMP") =
      (.ok (.fin (2685 / 100)), .ok (.fin 300)) := by decide +kernel

/-- C154: the values of a diode model without parameters, as the documentation and diode.py:246-272 give them. -/
theorem C154_defaults : diodeCtor [] = .ok [("IS", .fin (1 / 100000000000000)), ("N", .fin 1), ("NBV", .fin 1), ("ISR", .fin 0),
    ("NR", .fin 2), ("RS", .fin 0), ("CJ0", .fin 0), ("M", .fin (1 / 2)), ("VJ", .fin (7 / 10)), ("FC", .fin (1 / 2)),
    ("CP", .fin 0), ("TT", .fin 0), ("BV", .inf), ("IBV", .fin (1 / 1000)), ("IKF", .inf), ("KF", .fin 0), ("AF", .fin 1),
    ("FFE", .fin 1), ("TEMP", .fin (2685 / 100)), ("XTI", .fin 3), ("EG", .fin (111 / 100)), ("TBV", .fin 0), ("TRS", .fin 0),
    ("TTT1", .fin 0), ("TTT2", .fin 0), ("TM1", .fin 0), ("TM2", .fin 0)] := by decide +kernel

/-- C154: what a given value becomes: numbers are kept, truth values are 0 and 1, `inf` is infinite, other texts are
refused. -/
theorem C154_given (key : String) (hk : key ≠ "TEMP") :
    (∀ x, diodeValue [(key.toList, .num x)] key = .ok (.fin x)) ∧
    diodeValue [(key.toList, .bool true)] key = .ok (.fin 1) ∧ diodeValue [(key.toList, .bool false)] key = .ok (.fin 0) ∧
    ∀ s, diodeValue [(key.toList, .text s)] key = if s = ['i', 'n', 'f'] then .ok .inf else .error .value := by
  refine ⟨fun x => ?_, ?_, ?_, fun s => ?_⟩
  · simp [diodeValue, dget, toFloat, diodeGiven, hk]
  · simp [diodeValue, dget, toFloat, diodeGiven, hk]
  · simp [diodeValue, dget, toFloat, diodeGiven, hk]
  · have : "inf".toList = ['i', 'n', 'f'] := by decide
    by_cases h : s = ['i', 'n', 'f']
    · simp [diodeValue, dget, toFloat, diodeGiven, hk, h]
    · simp [diodeValue, dget, toFloat, h]

/-- C154: for every other parameter it is, as long as the default is finite. -/
theorem C154_default (key : String) (hk : key ≠ "TEMP") (x : ℚ) (hx : diodeDefault key = .fin x) :
    diodeValue [(key.toList, .num x)] key = diodeValue [] key := by
  unfold diodeValue
  simp [dget, toFloat, diodeGiven, hk, hx]

/-- the hypotheses of `C154_read_back_partial` -/
def fmt1 : Num → Line
  | .fin x => if x = 0 then "0".toList else if x = 300 then "300".toList else "1e-14".toList
  | .inf => "inf".toList
def some1 : Obj (List (String × Num)) := ⟨.diode, "dm".toList, [("IS", .fin (1 / 10 ^ 14)), ("BV", .inf), ("TEMP", .fin 300)]⟩

theorem reads_of (x : Num) (v : Val) (h : convert (fmt1 x) .float = some v ∧ toFloat v = .ok x ∧
    (fmt1 x ≠ [] ∧ ((fmt1 x).all fun c => c.isWhitespace = false) = true) ∧ '=' ∉ fmt1 x ∧ '(' ∉ fmt1 x ∧
      ')' ∉ fmt1 x) : Reads fmt1 x :=
  ⟨⟨v, h.1, h.2.1⟩, ⟨h.2.2.1.1, by simpa using h.2.2.1.2⟩, h.2.2.2⟩

example : ∀ key ∈ printed, Reads fmt1 (attr some1 key) := by
  have h : ∀ key ∈ printed, attr some1 key = .fin 0 ∨ attr some1 key = .fin (1 / 10 ^ 14) ∨
      attr some1 key = .fin 300 ∨ attr some1 key = .inf := by decide +kernel
  intro key hk
  rcases h key hk with h | h | h | h <;> rw [h]
  · exact reads_of _ (.num 0) (by decide +kernel)
  · exact reads_of _ (.num (1 / 10 ^ 14)) (by decide +kernel)
  · exact reads_of _ (.num 300) (by decide +kernel)
  · exact reads_of _ (.text "inf".toList) (by decide +kernel)

end Verif.Models
