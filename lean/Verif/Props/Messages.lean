import Verif.Model.Messages
import Verif.Props.Refs

/-!
Property C219: messages depend on the verbosity in one way only: those of low importance are left out.
-/

namespace Verif.Messages
variable {P : Type}

/-- what an information line adds to standard output -/
def shown (verbose : Int) : Call → List Char
  | .info msg rel nl => if rel ≤ verbose then msg ++ [if nl then '\n' else ' '] else []
  | _ => []

def headText : List Char := "Parse error on line ".toList

/-- what a message adds to standard error -/
def told : Call → List Char
  | .info _ _ _ => []
  | .warn msg => ['W', ':', ' '] ++ msg ++ ['\n']
  | .error msg => ['E', ':', ' '] ++ msg ++ ['\n']
  | .parse n line => ['E', ':', ' '] ++ headText ++ Nat.toDigits 10 n ++ [':', '\n'] ++ line ++ ['\n']

theorem parseHead_eq (n : Nat) : parseHead n = headText ++ Nat.toDigits 10 n ++ [':'] := rfl

/-- one message -/
theorem run_open (p : P) (v : Int) (w : World P) (h : w.isOpen = true) (c : Call) :
    c.run p v w = ({ w with out := w.out ++ shown v c, err := w.err ++ told c }, none) := by
  cases c with
  | info msg rel nl =>
    by_cases hr : rel ≤ v
    · cases nl <;> simp [Call.run, infoLine, shown, told, withSettings, World.print, h, hr]
    · simp [Call.run, infoLine, shown, told, hr]
  | warn msg => simp [Call.run, warning, World.complain, shown, told]
  | error msg => simp [Call.run, generalError, World.complain, shown, told]
  | parse n line => simp [Call.run, parseError, generalError, World.complain, shown, told, parseHead_eq]

/-- C219: as long as standard output works, a run of messages adds to standard output the information lines whose importance is at
most the verbosity, in order, and to standard error all warnings and errors, whatever the verbosity. The settings of numpy are left as
they were. -/
theorem C219_session (p : P) (v : Int) (w : World P) (h : w.isOpen = true) (l : List Call) :
    session p v w l = ({ w with out := w.out ++ l.flatMap (shown v), err := w.err ++ l.flatMap told }, none) := by
  induction l generalizing w with
  | nil => simp [session]
  | cons c r ih =>
    rw [session, run_open p v w h]
    simp only
    rw [ih { w with out := w.out ++ shown v c, err := w.err ++ told c } h]
    simp

/-- C219: with a higher verbosity nothing is lost and nothing changes its order; errors and warnings are the same. -/
theorem C219_verbosity (p : P) (w : World P) (h : w.isOpen = true) (l : List Call) {v v' : Int} (hv : v ≤ v') :
    (session p v w l).1.out.Sublist (session p v' w l).1.out ∧ (session p v w l).1.err = (session p v' w l).1.err ∧
      (session p v w l).1.settings = w.settings := by
  rw [C219_session p v w h, C219_session p v' w h]
  refine ⟨?_, rfl, rfl⟩
  refine List.Sublist.append (List.Sublist.refl _) ?_
  induction l with
  | nil => simp
  | cons c r ih =>
    rw [List.flatMap_cons, List.flatMap_cons]
    refine List.Sublist.append ?_ ih
    cases c with
    | info msg rel nl =>
      simp only [shown]
      by_cases h1 : rel ≤ v
      · rw [if_pos h1, if_pos (h1.trans hv)]
      · rw [if_neg h1]
        exact List.nil_sublist _
    | warn | error | parse => exact List.Sublist.refl _

/-- C219: a verbosity below the importance of all messages keeps standard output as it is; messages of importance 0 are shown at every
verbosity from 0. -/
theorem C219_silent (p : P) (w : World P) (v : Int) (l : List Call) (hl : ∀ msg rel nl, Call.info msg rel nl ∈ l → v < rel) :
    (session p v w l).1.out = w.out ∧ (session p v w l).2 = none := by
  induction l generalizing w with
  | nil => exact ⟨rfl, rfl⟩
  | cons c r ih =>
    have key : ∀ w' : World P, w'.out = w.out → c.run p v w = (w', none) → (session p v w (c :: r)).1.out = w.out ∧
        (session p v w (c :: r)).2 = none := by
      intro w' h1 h2
      rw [session, h2]
      have := ih w' fun m a b hm => hl m a b (List.mem_cons_of_mem _ hm)
      exact ⟨this.1.trans h1, this.2⟩
    cases c with
    | info msg rel nl =>
      have := hl msg rel nl (List.mem_cons_self ..)
      exact key w rfl (by simp only [Call.run, infoLine]; rw [if_neg (by omega)])
    | warn msg => exact key (w.complain (['W', ':', ' '] ++ msg)) rfl rfl
    | error msg => exact key (w.complain (['E', ':', ' '] ++ msg)) rfl rfl
    | parse n line => exact key ((w.complain (['E', ':', ' '] ++ parseHead n)).complain line) rfl rfl

theorem C219_always (p : P) (w : World P) (h : w.isOpen = true) {v : Int} (hv : 0 ≤ v) (msg : List Char) :
    infoLine p w msg 0 v true = ({ w with out := w.out ++ msg ++ ['\n'] }, none) := by
  simp [infoLine, withSettings, World.print, h, hv]

/-- C219: a message that is not shown does nothing at all, also if standard output does not work. -/
theorem C219_suppressed (p : P) (w : World P) {v rel : Int} (hv : v < rel) (msg : List Char) (nl : Bool) :
    infoLine p w msg rel v nl = (w, none) := by
  rw [infoLine, if_neg (by omega)]

/-- C219 for any standard output: messages that are shown leave the settings as they were if they can be printed. Missing: if `print`
raises, see the refutation. -/
theorem C219_settings_partial (p : P) (w : World P) (msg : List Char) (rel v : Int) (nl : Bool)
    (h : (infoLine p w msg rel v nl).2 = none) : (infoLine p w msg rel v nl).1.settings = w.settings := by
  by_cases hr : v ≥ rel
  · rw [infoLine, if_pos hr] at h ⊢
    unfold withSettings at h ⊢
    split at h <;> rename_i w' e <;> simp_all
  · rw [infoLine, if_neg hr]

/-- C219 refuted: if `print` raises, the settings of numpy for the rest of the program are those of the simulator. -/
theorem C219_settings_refuted :
    ∃ (w : World Nat) (p : Nat) (msg : List Char), (infoLine p w msg 0 3 true).2 = some .value ∧
      (infoLine p w msg 0 3 true).1.settings = p ∧ p ≠ w.settings :=
  ⟨⟨[], [], 8, false⟩, 2, ['x'], by decide⟩

/-- C219: a parse error is reported with its message, if there is one, the number of the line and the line, and goes on as an
exception with the same message; standard output is not touched. -/
theorem C219_handler (w : World P) (msg : List Char) (n : Nat) (line : List Char) :
    handler w msg n line =
      ({ w with err := w.err ++ (if msg = [] then [] else told (.error msg)) ++ told (.parse n line) }, some (.parse msg)) := by
  cases msg with
  | nil => simp [handler, parseError, generalError, World.complain, parseHead_eq, told]
  | cons a r => simp [handler, parseError, generalError, World.complain, parseHead_eq, told]

/-- C219: the number of the line and the line can be read from the report: no two places have the same report. -/
theorem C219_report {n n' : Nat} {line line' : List Char} (h : told (.parse n line) = told (.parse n' line')) : n = n' ∧ line = line' := by
  have dig : ∀ k, ∀ c ∈ Nat.toDigits 10 k, c ≠ ':' := by
    intro k c hc
    have := Nat.isDigit_of_mem_toDigits (by decide) (by decide) hc
    rintro rfl
    exact absurd this (by decide)
  simp only [told, List.append_assoc, List.append_cancel_left_eq] at h
  have cut : ∀ k (r : List Char), (Nat.toDigits 10 k ++ ([':', '\n'] ++ r)).takeWhile (fun c => c ≠ ':') = Nat.toDigits 10 k ∧
      (Nat.toDigits 10 k ++ ([':', '\n'] ++ r)).dropWhile (fun c => c ≠ ':') = [':', '\n'] ++ r := by
    intro k r
    constructor
    · rw [List.takeWhile_append_of_pos fun c hc => by simpa using dig k c hc]
      simp
    · rw [List.dropWhile_append_of_pos fun c hc => by simpa using dig k c hc]
      simp
  have h1 := congrArg (List.takeWhile fun c => c ≠ ':') h
  have h2 := congrArg (List.dropWhile fun c => c ≠ ':') h
  rw [(cut _ _).1, (cut _ _).1] at h1
  rw [(cut _ _).2, (cut _ _).2] at h2
  exact ⟨Refs.digits_inj h1, by simpa using h2⟩

/-- C219: on standard output the same text appears as on standard error. -/
theorem C219_to_output (w : World P) (h : w.isOpen = true) (msg : List Char) (n : Nat) (line : List Char) :
    generalError w msg true = ({ w with out := w.out ++ told (.error msg) }, none) ∧
    warning w msg true = ({ w with out := w.out ++ told (.warn msg) }, none) ∧
    parseError w n line true = ({ w with out := w.out ++ told (.parse n line) }, none) := by
  refine ⟨?_, ?_, ?_⟩ <;> simp [generalError, warning, parseError, World.print, h, told, parseHead_eq]

/-- C219: equations are printed one to a line, in order, between two rules. -/
theorem C219_equations (w : World P) (h : w.isOpen = true) (eqs : List (List Char)) :
    equations w eqs = ({ w with out := w.out ++ ['+', '-', '-', '\n'] ++ eqs.flatMap (fun e => ['|', ' '] ++ e ++ ['\n']) ++
      ['+', '-', '-', '\n'] }, none) := by
  have key : ∀ (l : List (List Char)) (w : World P), w.isOpen = true →
      equations.loop w l = ({ w with out := w.out ++ l.flatMap (fun e => ['|', ' '] ++ e ++ ['\n']) }, none) := by
    intro l
    induction l with
    | nil => intro w _; simp [equations.loop]
    | cons e r ih =>
      intro w hw
      rw [equations.loop, World.print, if_pos hw]
      simp only
      rw [ih { w with out := w.out ++ (['|', ' '] ++ e) ++ ['\n'] } hw]
      simp
  rw [equations, show "+--".toList = ['+', '-', '-'] from rfl, World.print, if_pos h]
  simp only
  rw [key _ { w with out := w.out ++ ['+', '-', '-'] ++ ['\n'] } h]
  simp [World.print, h]

/-! ### Examples -/

example : (⟨[], [], 8, true⟩ : World Nat).isOpen = true ∧ (session 2 3 (⟨[], [], 8, true⟩ : World Nat)
    [.info "Starting".toList 3 false, .warn "no".toList, .info "x".toList 6 true, .parse 12 "R1 a".toList, .info "done.".toList 0 true]).1 =
      ⟨"Starting done.\n".toList, "W: no\nE: Parse error on line 12:\nR1 a\n".toList, 8, true⟩ := by decide +kernel

/-- hypothesis of `C219_silent` -/
example : ∀ msg rel nl, Call.info msg rel nl ∈ [.info "a".toList 3 true, .warn "b".toList] → (2 : Int) < rel := by
  intro msg rel nl h
  simp at h
  omega

end Verif.Messages
