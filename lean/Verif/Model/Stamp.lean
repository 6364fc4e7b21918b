import Mathlib.Data.List.Basic
import Mathlib.Algebra.Field.Defs
import Mathlib.Data.Int.Basic

/-!
Model of the reduction of device stamps (mosq.py:387-404, diode.py:182-198: the same text) and of their
addition to the Jacobian and the residual (dc_analysis.py:843-881).

A matrix is a function of two integer indices, a stamp a list of rows. `-1` is the index of the
reference node, which is removed before the addition.
-/

namespace Verif.Stamp

variable {K : Type} [Field K]

/-- The list of all pairs of indices of the terminals `ns`, row by row (mosq.py:363-364). -/
def fullIdx (ns : List ℕ) : List (ℤ × ℤ) :=
  ns.flatMap fun i : ℕ => ns.map fun j : ℕ => ((i : ℤ) - 1, (j : ℤ) - 1)

/-- `zap_rc`: positions of the grounded terminals. -/
def zap (ns : List ℕ) : List ℕ := (ns.zipIdx.filter fun p => decide ((p.1 : ℤ) - 1 = -1)).map (·.2)

/-- `np.delete` along one axis. -/
def npDelete {α : Type} (l : List α) (pos : List ℕ) : List α :=
  (l.zipIdx.filter fun p => decide (p.2 ∉ pos)).map (·.1)

/-- The reduction before folding: indices and flattened values. -/
def reduce (ns : List ℕ) (stamp : List (List K)) : List (ℤ × ℤ) × List K :=
  let z := zap ns
  let rows := npDelete stamp z
  let cols := rows.map fun r => npDelete r z
  ((fullIdx ns).filter fun p => decide (p.1 ≠ -1 ∧ p.2 ≠ -1), cols.flatten)

/-- One step of the folding loop. -/
def foldStep (acc : List (ℤ × ℤ) × List K) (p : (ℤ × ℤ) × K) : List (ℤ × ℤ) × List K :=
  if p.1 ∉ acc.1 then (acc.1 ++ [p.1], acc.2 ++ [p.2])
  else (acc.1, acc.2.modify (acc.1.idxOf p.1) (· + p.2))

def fold (r : List (ℤ × ℤ) × List K) : List (ℤ × ℤ) × List K :=
  (r.1.zip r.2).foldl foldStep ([], [])

/-- Assignment of one entry. -/
def setAt (J : ℤ → ℤ → K) (p : ℤ × ℤ) (v : K) : ℤ → ℤ → K :=
  fun r c => if (r, c) = p then v else J r c

/-- `J[idx] += vals` of numpy: all entries are read before any is written. Without indices the index is
the empty tuple, which stands for the whole matrix, and the shapes do not match (ValueError). -/
def fancyAdd (J : ℤ → ℤ → K) (idx : List (ℤ × ℤ)) (vals : List K) : Option (ℤ → ℤ → K) :=
  if idx = [] then none
  else some ((idx.zip vals).foldl (fun J' p => setAt J' p.1 (J p.1.1 p.1.2 + p.2)) J)

/-- `iis, gs = elem.gstamp(...); J[iis] += gs`. -/
def addStamp (J : ℤ → ℤ → K) (ns : List ℕ) (stamp : List (List K)) : Option (ℤ → ℤ → K) :=
  let f := fold (reduce ns stamp)
  fancyAdd J f.1 f.2

/-- `istamp` (mosq.py:235-243, diode.py:150-158): the current `i` at `n1`, `-i` at `n2`, without
the rows of the reference; there is no folding. -/
def istamp (n1 n2 : ℕ) (i : K) : List (ℤ × ℤ) × List K :=
  let all : List (ℤ × K) := [((n1 : ℤ) - 1, i), ((n2 : ℤ) - 1, -i)]
  let kept := all.filter fun p => decide (p.1 ≠ -1)
  (kept.map fun p => (p.1, 0), kept.map (·.2))

/-- `iis, i = elem.istamp(...); Tx[iis] += i`. -/
def addCurrent (T : ℤ → ℤ → K) (n1 n2 : ℕ) (i : K) : Option (ℤ → ℤ → K) :=
  let s := istamp n1 n2 i
  fancyAdd T s.1 s.2

/-- The other branch of `_update_J_and_Tx`, for one drive port with transconductance `g` (dc_analysis.py:869-881). -/
def addPort (n1 n2 : ℕ) (J : ℤ → ℤ → K) (p : (ℕ × ℕ) × K) : ℤ → ℤ → K :=
  let add (J : ℤ → ℤ → K) (r c : ℕ) (v : K) : ℤ → ℤ → K :=
    setAt J ((r : ℤ) - 1, (c : ℤ) - 1) (J ((r : ℤ) - 1) ((c : ℤ) - 1) + v)
  let J := if n1 ≠ 0 ∧ p.1.1 ≠ 0 then add J n1 p.1.1 p.2 else J
  let J := if n1 ≠ 0 ∧ p.1.2 ≠ 0 then add J n1 p.1.2 (-p.2) else J
  let J := if n2 ≠ 0 ∧ p.1.1 ≠ 0 then add J n2 p.1.1 (-p.2) else J
  if n2 ≠ 0 ∧ p.1.2 ≠ 0 then add J n2 p.1.2 p.2 else J

def addPorts (J : ℤ → ℤ → K) (n1 n2 : ℕ) (ports : List ((ℕ × ℕ) × K)) : ℤ → ℤ → K :=
  ports.foldl (addPort n1 n2) J

/-- `diode.gstamp` before the reduction. -/
def diodeStamp (gmin gm : K) [DecidableEq K] : List (List K) :=
  let gm := if gm = 0 then gmin * 2 else gm
  [[gm, -gm], [-gm, gm]]

end Verif.Stamp
