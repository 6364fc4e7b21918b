import Verif.Model.Refs
import Verif.Props.Testing
import Mathlib.Analysis.SpecialFunctions.Complex.Arg
import Mathlib.Analysis.Real.Pi.Bounds

/-!
C184: the references read back from the files of results are the results that were saved.
-/

namespace Verif.Refs

variable {K C : Type}

/-! ### Poles and zeros -/

/-- the ends of the names, with the values -/
def tag (num : Nat → Word) (c : Char) : Nat → List (K × K) → List (Word × (K × K))
  | _, [] => []
  | i, z :: l => (c :: (num i ++ [')']), z) :: tag num c (i + 1) l

def reW (w : Word) : Word := 'R' :: 'e' :: '(' :: w
def imW (w : Word) : Word := 'I' :: 'm' :: '(' :: w

def both (q : Word × (K × K)) : List (Word × K) := [(reW q.1, q.2.1), (imW q.1, q.2.2)]

theorem pzPart_tag (num : Nat → Word) (c : Char) (i : Nat) (l : List (K × K)) :
    pzPart num c i l = (tag num c i l).flatMap both := by
  induction l generalizing i with
  | nil => rfl
  | cons z l ih => simp [pzPart, tag, both, ih, reName, imName, reW, imW]

theorem tag_snd (num : Nat → Word) (c : Char) (i : Nat) (l : List (K × K)) : (tag num c i l).map Prod.snd = l := by
  induction l generalizing i with
  | nil => rfl
  | cons z l ih => simp [tag, ih]

theorem tag_length (num : Nat → Word) (c : Char) (i : Nat) (l : List (K × K)) : (tag num c i l).length = l.length := by
  rw [← List.length_map Prod.snd, tag_snd]

theorem tag_mem {num : Nat → Word} {c : Char} {i : Nat} {l : List (K × K)} {w : Word}
    (h : w ∈ (tag num c i l).map Prod.fst) : ∃ k, i ≤ k ∧ w = c :: (num k ++ [')']) := by
  induction l generalizing i with
  | nil => simp [tag] at h
  | cons z l ih =>
    simp only [tag, List.map_cons, List.mem_cons] at h
    rcases h with h | h
    · exact ⟨i, le_rfl, h⟩
    · obtain ⟨k, hk, e⟩ := ih h
      exact ⟨k, by omega, e⟩

theorem tag_nodup {num : Nat → Word} (hn : Function.Injective num) (c : Char) (i : Nat) (l : List (K × K)) :
    ((tag num c i l).map Prod.fst).Nodup := by
  induction l generalizing i with
  | nil => simp [tag]
  | cons z l ih =>
    simp only [tag, List.map_cons, List.nodup_cons]
    refine ⟨fun h => ?_, ih _⟩
    obtain ⟨k, hk, e⟩ := tag_mem h
    have : num i = num k := by simpa using e
    have := hn this
    omega

theorem value_mem [Zero K] {d : List (Word × K)} (hn : (d.map Prod.fst).Nodup) {k : Word} {v : K} (h : (k, v) ∈ d) : value d k = v := by
  induction d with
  | nil => simp at h
  | cons p d ih =>
    simp only [List.map_cons, List.nodup_cons] at hn
    rcases List.mem_cons.1 h with h | h
    · subst h; simp [value]
    · have hne : p.1 ≠ k := fun e => hn.1 (e ▸ List.mem_map_of_mem (f := Prod.fst) h)
      have := ih hn.2 h
      simpa [value, List.find?_cons, hne] using this

theorem cons_le (c : Char) (a b : Word) : c :: a ≤ c :: b ↔ a ≤ b := by
  rw [← not_lt, ← not_lt, List.cons_lt_cons_iff]; simp

theorem cons_le_of_lt {c e : Char} (h : c < e) (a b : Word) : c :: a ≤ e :: b :=
  le_of_lt (List.cons_lt_cons_iff.2 (Or.inl h))

theorem reW_le (a b : Word) : reW a ≤ reW b ↔ a ≤ b := by simp only [reW, cons_le]
theorem imW_le (a b : Word) : imW a ≤ imW b ↔ a ≤ b := by simp only [imW, cons_le]
theorem imW_le_reW (a b : Word) : imW a ≤ reW b := cons_le_of_lt (by decide) _ _

theorem sorted_append {l r : List Word} (h : ∀ a ∈ l, ∀ b ∈ r, a ≤ b) :
    (l ++ r).insertionSort (· ≤ ·) = l.insertionSort (· ≤ ·) ++ r.insertionSort (· ≤ ·) := by
  refine List.Perm.eq_of_pairwise' (r := (· ≤ ·)) (List.pairwise_insertionSort _ _) ?_ ?_
  · refine List.pairwise_append.2 ⟨List.pairwise_insertionSort _ _, List.pairwise_insertionSort _ _, fun a ha b hb => h a ?_ b ?_⟩
    · simpa using ha
    · simpa using hb
  · exact (List.perm_insertionSort _ _).trans ((List.perm_insertionSort _ _).append (List.perm_insertionSort _ _)).symm

theorem sorted_map {f : Word → Word} (hf : ∀ a b, f a ≤ f b ↔ a ≤ b) (l : List Word) :
    (l.map f).insertionSort (· ≤ ·) = (l.insertionSort (· ≤ ·)).map f := by
  refine List.Perm.eq_of_pairwise' (r := (· ≤ ·)) (List.pairwise_insertionSort _ _) ?_ ?_
  · rw [List.pairwise_map]
    exact (List.pairwise_insertionSort (· ≤ ·) l).imp fun h => (hf _ _).2 h
  · exact (List.perm_insertionSort _ _).trans ((List.perm_insertionSort _ _).map f).symm

theorem sorted_perm {l r : List Word} (h : l.Perm r) : l.insertionSort (· ≤ ·) = r.insertionSort (· ≤ ·) :=
  List.Perm.eq_of_pairwise' (r := (· ≤ ·)) (List.pairwise_insertionSort _ _) (List.pairwise_insertionSort _ _)
    ((List.perm_insertionSort _ _).trans (h.trans (List.perm_insertionSort _ _).symm))

theorem both_keys (T : List (Word × (K × K))) : ((T.flatMap both).map Prod.fst).Perm
    ((T.map Prod.fst).map imW ++ (T.map Prod.fst).map reW) := by
  induction T with
  | nil => simp
  | cons q T ih =>
    simp only [List.flatMap_cons, both, List.cons_append, List.nil_append, List.map_cons]
    refine (List.Perm.swap _ _ _).trans (.cons _ ?_)
    exact (List.Perm.cons _ ih).trans List.perm_middle.symm

/-- C184 for poles and zeros: whatever the order of the dictionary and however many there are, the file gives back the poles and
the zeros that were saved, every real part with its imaginary part. -/
theorem C184_pz [Zero K] {num : Nat → Word} (hn : Function.Injective num) (poles zeros : List (K × K)) {d : List (Word × K)}
    (hd : d.Perm (pzFile num poles zeros)) :
    ∃ P Z, recover d = .ok (P, Z) ∧ P.Perm poles ∧ Z.Perm zeros := by
  set Tp := tag num 'p' 0 poles with hTp
  set Tz := tag num 'z' 0 zeros with hTz
  have hfile : pzFile num poles zeros = (Tp ++ Tz).flatMap both := by
    simp [pzFile, pzPart_tag, hTp, hTz]
  rw [hfile] at hd
  have hTn : ((Tp ++ Tz).map Prod.fst).Nodup := by
    rw [List.map_append, List.nodup_append]
    refine ⟨tag_nodup hn _ _ _, tag_nodup hn _ _ _, fun a ha b hb e => ?_⟩
    obtain ⟨k, -, rfl⟩ := tag_mem ha
    obtain ⟨k', -, rfl⟩ := tag_mem hb
    simp at e
  have hkp : (d.map Prod.fst).Perm (((Tp ++ Tz).map Prod.fst).map imW ++ ((Tp ++ Tz).map Prod.fst).map reW) :=
    (hd.map _).trans (both_keys _)
  have hkn : (d.map Prod.fst).Nodup := by
    rw [hkp.nodup_iff, List.nodup_append]
    refine ⟨hTn.map fun a b e => by simpa [imW] using e, hTn.map fun a b e => by simpa [reW] using e, fun a ha b hb e => ?_⟩
    obtain ⟨a', -, rfl⟩ := List.mem_map.1 ha
    obtain ⟨b', -, rfl⟩ := List.mem_map.1 hb
    simp [imW, reW] at e
  set Sp := (Tp.map Prod.fst).insertionSort (· ≤ ·) with hSp
  set Sz := (Tz.map Prod.fst).insertionSort (· ≤ ·) with hSz
  have hS : ((Tp ++ Tz).map Prod.fst).insertionSort (· ≤ ·) = Sp ++ Sz := by
    rw [List.map_append, sorted_append]
    intro a ha b hb
    obtain ⟨k, -, rfl⟩ := tag_mem ha
    obtain ⟨k', -, rfl⟩ := tag_mem hb
    exact cons_le_of_lt (by decide) _ _
  have hkeys : (d.map Prod.fst).insertionSort (· ≤ ·) = (Sp ++ Sz).map imW ++ (Sp ++ Sz).map reW := by
    rw [sorted_perm hkp, sorted_append, sorted_map imW_le, sorted_map reW_le, hS]
    intro a ha b hb
    obtain ⟨a', -, rfl⟩ := List.mem_map.1 ha
    obtain ⟨b', -, rfl⟩ := List.mem_map.1 hb
    exact imW_le_reW _ _
  have hval : ∀ q ∈ Tp ++ Tz, (value d (reW q.1), value d (imW q.1)) = q.2 := by
    intro q hq
    have h1 : (reW q.1, q.2.1) ∈ d := hd.mem_iff.2 (List.mem_flatMap.2 ⟨q, hq, by simp [both]⟩)
    have h2 : (imW q.1, q.2.2) ∈ d := hd.mem_iff.2 (List.mem_flatMap.2 ⟨q, hq, by simp [both]⟩)
    rw [value_mem hkn h1, value_mem hkn h2]
  set g : Word → K × K := fun s => (value d (reW s), value d (imW s)) with hg
  have hperm : ∀ T : List (Word × (K × K)), (∀ q ∈ T, q ∈ Tp ++ Tz) →
      (((T.map Prod.fst).insertionSort (· ≤ ·)).map g).Perm (T.map Prod.snd) := by
    intro T hT
    refine ((List.perm_insertionSort _ _).map g).trans (List.Perm.of_eq ?_)
    rw [List.map_map]
    exact List.map_congr_left fun q hq => hval q (hT q hq)
  have hcount : ((d.map Prod.fst).filter fun k => k.take 4 == ['R', 'e', '(', 'p']).length = Sp.length := by
    rw [((hkp.filter _).length_eq), List.filter_append, List.length_append]
    have h1 : (((Tp ++ Tz).map Prod.fst).map imW).filter (fun k => k.take 4 == ['R', 'e', '(', 'p']) = [] := by
      rw [List.filter_eq_nil_iff]
      intro a ha
      obtain ⟨a', -, rfl⟩ := List.mem_map.1 ha
      simp [imW]
    have h2 : (((Tp ++ Tz).map Prod.fst).map reW).filter (fun k => k.take 4 == ['R', 'e', '(', 'p']) = (Tp.map Prod.fst).map reW := by
      rw [List.map_append, List.map_append, List.filter_append]
      have e1 : ((Tp.map Prod.fst).map reW).filter (fun k => k.take 4 == ['R', 'e', '(', 'p']) = (Tp.map Prod.fst).map reW := by
        rw [List.filter_eq_self]
        intro a ha
        obtain ⟨a', ha', rfl⟩ := List.mem_map.1 ha
        obtain ⟨k, -, rfl⟩ := tag_mem ha'
        simp [reW]
      have e2 : ((Tz.map Prod.fst).map reW).filter (fun k => k.take 4 == ['R', 'e', '(', 'p']) = [] := by
        rw [List.filter_eq_nil_iff]
        intro a ha
        obtain ⟨a', ha', rfl⟩ := List.mem_map.1 ha
        obtain ⟨k, -, rfl⟩ := tag_mem ha'
        simp [reW]
      rw [e1, e2, List.append_nil]
    rw [h1, h2]
    simp [hSp]
  refine ⟨Sp.map g, Sz.map g, ?_, ?_, ?_⟩
  · unfold recover
    simp only [hkeys, hcount]
    have hlen : ((Sp ++ Sz).map imW ++ (Sp ++ Sz).map reW).length = 2 * (Sp ++ Sz).length := by simp; omega
    rw [if_neg (by rw [hlen]; omega), hlen, Nat.mul_div_cancel_left _ (by decide)]
    have hs : (List.range (Sp ++ Sz).length).map (fun k => (value d (((Sp ++ Sz).map imW ++ (Sp ++ Sz).map reW).getD
        ((Sp ++ Sz).length + k) []), value d (((Sp ++ Sz).map imW ++ (Sp ++ Sz).map reW).getD k []))) = (Sp ++ Sz).map g := by
      generalize Sp ++ Sz = S
      refine List.ext_getElem (by simp) fun k hk _ => ?_
      have hk' : k < S.length := by simpa using hk
      simp [hg, List.getD_eq_getElem?_getD, List.getElem?_append, hk']
    rw [hs, List.map_append, ← List.length_map g, List.take_left, List.drop_left]
  · have := hperm Tp fun q hq => List.mem_append_left _ hq
    rwa [hTp, tag_snd, ← hTp] at this
  · have := hperm Tz fun q hq => List.mem_append_right _ hq
    rwa [hTz, tag_snd, ← hTz] at this

/-- a run with poles and zeros apart from each other passes against its own file -/
theorem C184_pz_itself {E : Type} [Field K] [LinearOrder K] {num : Nat → Word} (hn : Function.Injective num)
    (env : Testing.Env K E) (hr : ∀ z, env.near z z = true) (poles zeros : List (K × K))
    (hp : ∀ a ∈ poles, ∀ b ∈ poles, env.near a b = true → a = b) (hz : ∀ a ∈ zeros, ∀ b ∈ zeros, env.near a b = true → a = b)
    {d : List (Word × K)} (hd : d.Perm (pzFile num poles zeros)) :
    ∃ P Z, recover d = .ok (P, Z) ∧ Testing.check env (.pz poles zeros) (.pz P Z) = .ok () := by
  obtain ⟨P, Z, h, hP, hZ⟩ := C184_pz hn poles zeros hd
  refine ⟨P, Z, h, Testing.C175_pz.2 ⟨hP.length_eq.symm, hZ.length_eq.symm, ?_, ?_⟩⟩
  · refine Testing.C175_singularities_partial _ _ _ _ (fun a ha b hb c hc h1 h2 => ?_) ⟨poles, hP.symm, ?_⟩
    · rw [← hp a ha b (hP.mem_iff.1 hb) h1, ← hp a ha c (hP.mem_iff.1 hc) h2]
    · exact List.forall₂_same.2 fun z _ => hr z
  · refine Testing.C175_singularities_partial _ _ _ _ (fun a ha b hb c hc h1 h2 => ?_) ⟨zeros, hZ.symm, ?_⟩
    · rw [← hz a ha b (hZ.mem_iff.1 hb) h1, ← hz a ha c (hZ.mem_iff.1 hc) h2]
    · exact List.forall₂_same.2 fun z _ => hr z

/-! ### AC results -/

theorem argName_inj {v w : Word} : argName v = argName w ↔ v = w := by simp [argName]

theorem column_arg (mag arg : C → K) (v : Word) (l : List (Word × List C)) (hn : (l.map Prod.fst).Nodup) (c : List C) (h : (v, c) ∈ l) :
    column (l.flatMap fun p => [(magName p.1, p.2.map mag), (argName p.1, p.2.map arg)]) (argName v) = some (c.map arg) := by
  induction l with
  | nil => simp at h
  | cons p l ih =>
    simp only [List.map_cons, List.nodup_cons] at hn
    have hm : (magName p.1 == argName v) = false := by simp [magName, argName]
    simp only [column, List.flatMap_cons, List.cons_append, List.nil_append, List.find?_cons, hm]
    rcases List.mem_cons.1 h with h | h
    · subst h; simp
    · have hne : p.1 ≠ v := fun e => hn.1 (e ▸ List.mem_map_of_mem (f := Prod.fst) h)
      have ha : (argName p.1 == argName v) = false := by simpa [argName_inj] using hne
      simpa [ha, column] using ih hn.2 h

/-- a name that is no magnitude and no phase -/
def PlainName (x : Word) : Prop := x ≠ [] ∧ ¬ (x.head? = some '|' ∧ x.getLast? = some '|') ∧ ∀ v, x ≠ argName v

/-- what is read for the values of a column -/
def reread (mag arg : C → K) (polar : K → K → C) (p : Word × List C) : Word × List C := (p.1, p.2.map fun z => polar (mag z) (arg z))

theorem acLoop_file (mag arg : C → K) (polar : K → K → C) (file : List (Word × List K))
    (l : List (Word × List C)) (hc : ∀ p ∈ l, column file (argName p.1) = some (p.2.map arg)) (res : List (Word × List C)) :
    acLoop polar file res (l.flatMap fun p => [(magName p.1, p.2.map mag), (argName p.1, p.2.map arg)]) =
      .ok ((l.map (reread mag arg polar)).reverse ++ res) := by
  induction l generalizing res with
  | nil => simp [acLoop]
  | cons p l ih =>
    have h1 : (magName p.1).getLast? = some '|' := by
      rw [magName, ← List.cons_append, List.getLast?_append]; simp
    have h2 : (argName p.1).getLast? = some ')' := by
      rw [argName, ← List.cons_append, ← List.cons_append, ← List.cons_append, ← List.cons_append, List.getLast?_append]; simp
    have hz : (p.1, List.zipWith polar (p.2.map mag) (p.2.map arg)) = reread mag arg polar p := by
      rw [List.zipWith_map, List.zipWith_self, reread]
    have ht : (magName p.1).tail.dropLast = p.1 := by simp [magName]
    simp only [List.flatMap_cons, List.cons_append, List.nil_append]
    have h0 : (magName p.1).head? = some '|' := rfl
    rw [acLoop, h0, h1]
    simp only [and_self, if_true, ht, hc p (by simp), hz]
    have h3 : (argName p.1).head? = some 'a' := rfl
    rw [acLoop, h2, h3]
    simp only
    rw [if_neg (by decide), ih fun q hq => hc q (List.mem_cons_of_mem _ hq)]
    simp

/-- the reference read from any file -/
theorem loadAc_file (mag arg : C → K) (real : K → C) (polar : K → K → C) {xname : Word}
    (hx : PlainName xname) (x : List K) (l : List (Word × List C)) (hn : (l.map Prod.fst).Nodup) :
    loadAc real polar (acFile mag arg xname x l) = .ok (xname, (l.map (reread mag arg polar)).reverse ++ [(xname, x.map real)]) := by
  simp only [loadAc, acFile]
  have hcol : ∀ p ∈ l, column ((xname, x) :: l.flatMap fun p => [(magName p.1, p.2.map mag), (argName p.1, p.2.map arg)])
      (argName p.1) = some (p.2.map arg) := by
    intro p hp
    have h0 : (xname == argName p.1) = false := by simpa using hx.2.2 p.1
    have := column_arg mag arg p.1 l hn p.2 hp
    simpa [column, List.find?_cons, h0] using this
  have hf : acLoop polar ((xname, x) :: l.flatMap fun p => [(magName p.1, p.2.map mag), (argName p.1, p.2.map arg)])
      [(xname, x.map real)] ((xname, x) :: l.flatMap fun p => [(magName p.1, p.2.map mag), (argName p.1, p.2.map arg)]) =
      .ok ((l.map (reread mag arg polar)).reverse ++ [(xname, x.map real)]) := by
    rw [acLoop]
    obtain ⟨a, t, rfl⟩ := List.exists_cons_of_ne_nil hx.1
    obtain ⟨b, hb⟩ : ∃ b, (a :: t).getLast? = some b := ⟨_, List.getLast?_eq_some_getLast (by simp)⟩
    rw [hb]
    simp only [List.head?_cons]
    have : ¬ (a = b ∧ b = '|') := by
      rintro ⟨rfl, rfl⟩
      exact hx.2.1 ⟨rfl, hb⟩
    rw [if_neg this, acLoop_file mag arg polar _ l hcol]
  rw [hf]

/-- C184 for AC results: if a value is determined by its magnitude and phase, the reference read from the file of an analysis has
exactly the variables of the analysis, with their values, and the same abscissa. -/
theorem C184_ac (mag arg : C → K) (real : K → C) (polar : K → K → C) (hpol : ∀ z, polar (mag z) (arg z) = z) {xname : Word}
    (hx : PlainName xname) (x : List K) (l : List (Word × List C)) (hn : (l.map Prod.fst).Nodup) :
    loadAc real polar (acFile mag arg xname x l) = .ok (xname, l.reverse ++ [(xname, x.map real)]) := by
  rw [loadAc_file mag arg real polar hx x l hn]
  have : reread mag arg polar = id := by funext p; simp [reread, hpol]
  rw [this, List.map_id]

/-- the entry found for a variable is its column -/
theorem C184_ac_lookup (xname : Word) (x : List C) (l : List (Word × List C)) (hn : (l.map Prod.fst).Nodup) (hx : xname ∉ l.map Prod.fst) :
    (∀ p ∈ l, column (l.reverse ++ [(xname, x)]) p.1 = some p.2) ∧ column (l.reverse ++ [(xname, x)]) xname = some x := by
  have key : ∀ (d : List (Word × List C)), (d.map Prod.fst).Nodup → ∀ p ∈ d, column d p.1 = some p.2 := by
    intro d
    induction d with
    | nil => simp
    | cons q d ih =>
      intro hd p hp
      simp only [List.map_cons, List.nodup_cons] at hd
      rcases List.mem_cons.1 hp with rfl | hp
      · simp [column]
      · have : (q.1 == p.1) = false := by
          simp only [beq_eq_false_iff_ne]
          exact fun e => hd.1 (e ▸ List.mem_map_of_mem (f := Prod.fst) hp)
        simpa [column, List.find?_cons, this] using ih hd.2 p hp
  have hnd : ((l.reverse ++ [(xname, x)]).map Prod.fst).Nodup := by
    rw [List.map_append, List.map_reverse, List.nodup_append]
    refine ⟨List.nodup_reverse.2 hn, by simp, fun a ha b hb e => hx ?_⟩
    have hb' : b = xname := by simpa using hb
    rw [← hb', ← e]
    simpa using ha
  exact ⟨fun p hp => key _ hnd p (by simp [hp]), key _ hnd (xname, x) (by simp)⟩

open Complex in
/-- C184 for the numbers of an AC analysis with phases in radians -/
theorem C184_ac_complex {xname : Word} (hx : PlainName xname) (x : List ℝ) (l : List (Word × List ℂ)) (hn : (l.map Prod.fst).Nodup) :
    loadAc (fun r : ℝ => (r : ℂ)) (fun m a => (m : ℂ) * exp (a * I)) (acFile (fun z => ‖z‖) arg xname x l) =
      .ok (xname, l.reverse ++ [(xname, x.map fun r : ℝ => (r : ℂ))]) :=
  C184_ac (fun z : ℂ => ‖z‖) arg (fun r : ℝ => (r : ℂ)) (fun m a => (m : ℂ) * exp (a * I)) (fun z => norm_mul_exp_arg_mul_I z) hx x l hn

open Complex in
/-- C184, refuted: with `ac_phase_in_deg` the phases are written in degrees and read as radians. -/
theorem C184_deg_refuted {xname : Word} (hx : PlainName xname) (x : List ℝ) (v : Word) : ∃ z : ℂ, ∃ w : ℂ, w ≠ z ∧
    loadAc (fun r : ℝ => (r : ℂ)) (fun m a => (m : ℂ) * exp (a * I)) (acFile (fun z => ‖z‖) (fun z => arg z * 180 / Real.pi) xname x [(v, [z])]) =
      .ok (xname, [(v, [w]), (xname, x.map fun r : ℝ => (r : ℂ))]) := by
  have hpi := Real.pi_pos
  have ha : arg (exp (((Real.pi / 180 : ℝ) : ℂ) * I)) = Real.pi / 180 := by
    rw [exp_mul_I]
    exact_mod_cast arg_cos_add_sin_mul_I ⟨by linarith, by linarith⟩
  refine ⟨exp (((Real.pi / 180 : ℝ) : ℂ) * I), exp (((1 : ℝ) : ℂ) * I), fun e => ?_, ?_⟩
  · have h1 : arg (exp (((1 : ℝ) : ℂ) * I)) = 1 := by
      rw [exp_mul_I]
      exact_mod_cast arg_cos_add_sin_mul_I ⟨by linarith [Real.pi_gt_three], by linarith [Real.pi_gt_three]⟩
    rw [e, ha] at h1
    linarith [Real.pi_lt_four]
  · have hn : ‖exp (((Real.pi / 180 : ℝ) : ℂ) * I)‖ = 1 := norm_exp_ofReal_mul_I _
    rw [loadAc_file _ _ _ _ hx x _ (by simp)]
    simp only [reread, List.map_cons, List.map_nil, List.reverse_cons, List.reverse_nil, List.nil_append, List.cons_append]
    rw [hn, ha]
    have : Real.pi / 180 * 180 / Real.pi = 1 := by field_simp
    rw [this]
    simp

/-! ### Other results -/

/-- C184 for the other files: every column is found under its name. -/
theorem C184_other (xname : Word) (x : List K) (l : List (Word × List K)) (hn : ((xname, x) :: l).map Prod.fst |>.Nodup) :
    ∃ d, loadOther ((xname, x) :: l) = .ok (xname, d) ∧ ∀ p ∈ (xname, x) :: l, column d p.1 = some p.2 := by
  refine ⟨((xname, x) :: l).reverse, rfl, fun p hp => ?_⟩
  rw [List.map_cons, List.nodup_cons] at hn
  have := C184_ac_lookup xname x l hn.2 hn.1
  rw [List.reverse_cons]
  rcases List.mem_cons.1 hp with rfl | hp
  · exact this.2
  · exact this.1 p hp

/-! ### Examples -/

/-- eleven poles: the names sort as p0, p1, p10, p2, ... -/
def elevenPoles : List (ℚ × ℚ) := (List.range 11).map fun n => (-(n : ℚ), 2 * n)

example : recover (pzFile (fun n => (Nat.toDigits 10 n)) elevenPoles [(7, 0)]) =
    .ok ([0, 1, 10, 2, 3, 4, 5, 6, 7, 8, 9].map fun n : Nat => (-(n : ℚ), 2 * (n : ℚ)), [(7, 0)]) := by decide +kernel

theorem digits_inj : Function.Injective (Nat.toDigits 10) := by
  intro a b h
  have := congrArg (fun l => Nat.ofDigitChars 10 l 0) h
  simpa only [Nat.ofDigitChars_toDigits (by decide : 1 < 10) le_rfl] using this

example : PlainName "f".toList := by
  refine ⟨by decide, by decide, fun v h => ?_⟩
  have := congrArg List.length h
  simp [argName] at this

/-- a file with an odd number of columns is no list of singularities -/
example : recover [("Re(p0)".toList, (1 : ℚ))] = .error .assertion := by decide +kernel

/-- a magnitude without phase -/
example : loadAc (K := ℚ) (C := ℚ × ℚ) (fun r => (r, 0)) (fun m a => (m, a)) [("f".toList, [1]), ("|Vn1|".toList, [2])] = .error .value := by
  decide +kernel

end Verif.Refs
