import Mathlib.Data.List.Basic

/-!
Model of `utilities.memoize` (utilities.py:693-730). The decorated function reads, besides
its arguments (the key), the attributes of the objects it is called with; they are the
explicit state `σ`. Devices and models are hashed by identity, so they are part of the key
and their attributes are not.
-/

namespace Verif.Memo

variable {σ κ ν ε : Type} [DecidableEq κ]

/-- The ordered dictionary, oldest entry first. -/
abbrev Cache (κ ν : Type) := List (κ × ν)

/-- One call of the decorated function: look-up, else `__missing__` (lines 722-728). A raising
call stores nothing. `popitem()` without argument removes the newest entry. -/
def call (limit : Option Nat) (f : σ → κ → Except ε ν) (c : Cache κ ν) (s : σ) (k : κ) :
    Except ε ν × Cache κ ν :=
  match c.lookup k with
  | some v => (.ok v, c)
  | none =>
    match f s k with
    | .error e => (.error e, c)
    | .ok v =>
      let c' := c ++ [(k, v)]
      match limit with
      | some n => (.ok v, if c'.length > n then c'.dropLast else c')
      | none => (.ok v, c')

/-- A sequence of calls, each with the state in which it is made; the results in order. -/
def calls (limit : Option Nat) (f : σ → κ → Except ε ν) :
    Cache κ ν → List (σ × κ) → List (Except ε ν) × Cache κ ν
  | c, [] => ([], c)
  | c, (s, k) :: rest =>
    let (r, c') := call limit f c s k
    let (rs, c'') := calls limit f c' rest
    (r :: rs, c'')

end Verif.Memo
