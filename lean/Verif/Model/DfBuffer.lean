import Mathlib.Data.List.Basic

/-!
Model of the history buffer `transient.dfbuffer` (transient.py:563-648). A data point is a
list of numbers (its length is the length of the tuple).
-/

namespace Verif.DfBuffer

variable {α : Type}

/-- `_the_real_buffer`, `_length`, `_width`. -/
structure Buf (α : Type) where
  items : List (List α)
  length : Nat
  width : Nat

/-- `__init__`, lines 586-589. -/
def init (length width : Nat) : Buf α := ⟨[], length, width⟩

/-- `add`, lines 591-609 (`none`: `ValueError`; the buffer is unchanged then). -/
def add (b : Buf α) (t : List α) : Option (Buf α) :=
  if ¬ t.length = b.width then none
  else
    let l := t :: b.items
    some { b with items := if l.length > b.length then l.take b.length else l }

/-- `get_df_vector`, line 629. -/
def getDf (b : Buf α) : List (List α) := b.items

/-- `isready`, lines 631-639. -/
def isReady (b : Buf α) : Bool := b.items.length == b.length

/-- Python code that keeps adding, ignoring refused points (`try`/`except ValueError`). -/
def addAll (b : Buf α) : List (List α) → Buf α
  | [] => b
  | t :: ts => addAll ((add b t).getD b) ts

end Verif.DfBuffer
