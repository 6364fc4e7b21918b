import Verif.Model.SymFront

/-!
C212: what a symbolic analysis returns.
-/

namespace Verif.SymFront
open Verif.Circuit (Err)

variable {V E T : Type}

/-- C212: called from Python, the analysis returns the solution found by sympy, one expression for each variable, with the conductances
replaced; with a source it also returns the transfer function from the source to each variable, kept in a second file. -/
theorem C212_library_partial (env : Env) (hc : env.cli = false) (subsG : E → E) (gain : String → V → E → V × T) (outfile : Option String)
    (p : V × E) (l : List (V × E)) :
    finish env subsG gain none outfile (.dict (p :: l)) =
      .ok ((⟨(p :: l).map fun q => (q.1, subsG q.2), outfile⟩, .none), false) ∧
    ∀ s, finish env subsG gain (some s) outfile (.dict (p :: l)) =
      .ok ((⟨(p :: l).map fun q => (q.1, subsG q.2), outfile⟩,
        .sol ⟨(p :: l).map fun q => gain s q.1 (subsG q.2), tfsFile outfile⟩), false) := by
  constructor
  · simp only [finish, hc, Bool.and_false]
    rfl
  · intro s
    simp only [finish, hc, Bool.and_false, List.map_map]
    rfl

/-- C212: in Python 2 the command line makes no difference. -/
theorem C212_same_partial (env : Env) (hp : env.py3 = false) (subsG : E → E) (gain : String → V → E → V × T)
    (source outfile : Option String) (r : Solved V E) :
    finish env subsG gain source outfile r = finish { env with cli := false } subsG gain source outfile r := by
  cases r with
  | list l => rfl
  | dict l =>
    cases source <;> cases l <;> cases hc : env.cli <;>
      simp [finish, printItems, sortKeys, hp, hc, bind, Except.bind]

/-- C212: the transfer functions are never kept in the file of the solution. -/
theorem C212_files (f : String) (h0 : f ≠ "") (h1 : f ≠ "stdout") : tfsFile (some f) = some (f ++ ".tfs") ∧ tfsFile (some f) ≠ some f := by
  have e : tfsFile (some f) = some (f ++ ".tfs") := by
    rw [tfsFile, if_neg (by simp [h0, h1])]
  refine ⟨e, ?_⟩
  rw [e]
  intro h
  have := congrArg (fun o : Option String => (o.getD "").length) h
  simp only [Option.getD_some, String.length_append] at this
  have h3 : ".tfs".length = 4 := by decide +kernel
  omega

/-- C212: without a file, or on the standard output, both go to the same place. -/
theorem C212_no_file : tfsFile none = none ∧ tfsFile (some "") = some "" ∧ tfsFile (some "stdout") = some "stdout" := by
  decide +kernel

/-- C212 refuted: in Python 3 no symbolic analysis that is run from the command line succeeds: the printing of its results raises a
TypeError. -/
theorem C212_cli_refuted (subsG : E → E) (gain : String → V → E → V × T) (source outfile : Option String) (p : V × E) (l : List (V × E)) :
    finish ⟨true, true⟩ subsG gain source outfile (.dict (p :: l)) = .error .type := by
  simp only [finish]
  rfl

/-- C212 refuted: for equations without solution, for which sympy returns an empty list, the warning asking to check the netlist is not
reached, an AttributeError is raised. -/
theorem C212_unsolved_refuted (env : Env) (subsG : E → E) (gain : String → V → E → V × T) (source outfile : Option String) :
    finish env subsG gain source outfile (.list []) = .error .attr := rfl

/-- C212: the warning is given for a circuit without unknowns only. -/
theorem C212_warning (env : Env) (subsG : E → E) (gain : String → V → E → V × T) (source outfile : Option String) (r : Solved V E)
    (o : Sol V E × Tfs V T) (b : Bool) (h : finish env subsG gain source outfile r = .ok (o, b)) :
    (b = true ↔ o.1.items = []) ∧ ∃ l, r = .dict l ∧ o.1.items = l.map fun q => (q.1, subsG q.2) := by
  cases r with
  | list l => cases h
  | dict l =>
    have h2 : o.1.items = (l.map fun q => (q.1, subsG q.2)) ∧ b = (l.map fun q => (q.1, subsG q.2)).isEmpty := by
      cases source <;> cases l <;> cases hc : env.cli <;> cases hp : env.py3 <;>
        simp [finish, printItems, sortKeys, hp, hc, bind, Except.bind] at h <;> obtain ⟨rfl, rfl⟩ := h <;> simp
    refine ⟨?_, l, rfl, h2.1⟩
    rw [h2.1, h2.2]
    simp

/-- one variable, with a source and a file -/
example : finish ⟨true, false⟩ (fun e : Nat => e + 1) (fun s v e => (v ++ "/" ++ s, e)) (some "V1") (some "out") (.dict [("VN1", 1)]) =
    .ok ((⟨[("VN1", 2)], some "out"⟩, .sol ⟨[("VN1/V1", 2)], some "out.tfs"⟩), false) := rfl

end Verif.SymFront
