import Verif.Model.Stamp
import Verif.Model.Mna
import Verif.Model.Newton
import Verif.Model.Op

/-!
Model of the loop that builds `J` and `Tx` for circuits of two-terminal non-linear devices with stamps, such as
diodes: dc_analysis.py:808-814 and `_update_J_and_Tx` (dc_analysis.py:842-860).

A device is known by the current and the conductance its model returns for a voltage (`get_i`, `get_gm`), the
device state is left out. The matrices are functions of integer indices, as in `Stamp`.
-/

namespace Verif.Devices
open Verif.Circuit Verif.Mna Verif.Stamp

variable {K : Type} [Field K] [DecidableEq K]

/-- what the model of a device returns -/
structure Law (K : Type) where
  i : K → K
  gm : K → K

/-- the voltage of the port, dc_analysis.py:850-855 -/
def portV {m : Nat} (x : Fin m → K) (n1 n2 : Nat) : K :=
  let at1 (n : Nat) : K := if h : n - 1 < m then x ⟨n - 1, h⟩ else 0
  let v : K := 0
  let v := if n1 ≠ 0 then v + at1 n1 else v
  if n2 ≠ 0 then v - at1 n2 else v

/-- `for elem in circ: if elem.is_nonlinear: ...`, the part for `Tx` -/
def updateT {m : Nat} (law : String → Law K) (x : Fin m → K) : List (Elem K) → (ℤ → ℤ → K) → Option (ℤ → ℤ → K)
  | [], T => some T
  | .NL id n1 n2 _ _ _ :: r, T => (addCurrent T n1 n2 ((law id).i (portV x n1 n2))).bind (updateT law x r)
  | _ :: r, T => updateT law x r T

/-- the part for `J` -/
def updateJ {m : Nat} (gmin : K) (law : String → Law K) (x : Fin m → K) :
    List (Elem K) → (ℤ → ℤ → K) → Option (ℤ → ℤ → K)
  | [], J => some J
  | .NL id n1 n2 _ _ _ :: r, J =>
    (addStamp J [n1, n2] (diodeStamp gmin ((law id).gm (portV x n1 n2)))).bind (updateJ gmin law x r)
  | _ :: r, J => updateJ gmin law x r J

/-- `Tx`, starting from zero (an exception counts as zero here; see `updateT`) -/
def vecT {m : Nat} (law : String → Law K) (circ : List (Elem K)) (x : Fin m → K) : Fin m → K :=
  fun r => ((updateT law x circ fun _ _ => 0).getD fun _ _ => 0) (r.val : ℤ) 0

/-- `J`, starting from zero -/
def matJ {m : Nat} (gmin : K) (law : String → Law K) (circ : List (Elem K)) (x : Fin m → K) :
    Matrix (Fin m) (Fin m) K :=
  fun r c => ((updateJ gmin law x circ fun _ _ => 0).getD fun _ _ => 0) (r.val : ℤ) (c.val : ℤ)

/-- the circuit that `op_analysis` solves; `s` is the result of `generate_mna_and_N` -/
def opCirc (m nv : Nat) (gmin : K) (law : String → Law K) (circ : List (Elem K)) (s : Sys K) : Op.Circ K m :=
  { mna := fun i j => s.M (i.val + 1) (j.val + 1)
    N := fun i => s.N (i.val + 1)
    Ntran := 0
    nn := nv - 1
    nonlinear := Newton.isNonlinear circ
    J := matJ gmin law circ
    Tx := vecT law circ
    locked := Newton.lockedNodes circ }

end Verif.Devices
