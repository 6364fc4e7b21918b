import Verif.Model.Symbolic
import Verif.Model.Stamp

/-!
Model of the symbolic stamps of transistors and diodes (symbolic.py:429-457), and of the numeric ones they stand for: `gstamp` of
square-law transistors that are not turned round (mosq.py:363-378), with `options.gmin` in place of conductances that are zero,
and the ports of EKV transistors (ekv.py:145, 310-330).

As in `Symbolic`, an expression is its value under a valuation of the symbols. The rows of the matrix are those of
`generate_mna_and_N`, with the reference node; `symbolic_analysis` drops the first row and column.
-/

namespace Verif.SymDev
open Verif.Circuit Verif.Mna Verif.Symbolic

variable {K : Type} [Field K]

/-- a symbol of a device, after substitution -/
def Cfg.sym (c : Cfg K) (pre : String) (id : List Char) : Sym := c.subst (factory (pre.toList ++ id) true true)

/-- transistors, symbolic.py:429-447 -/
def symMos (c : Cfg K) (r0s : Bool) (M : Mat K) (id : List Char) (n1 ng n2 : ℕ) : Mat K :=
  let gm := c.ρ (Cfg.sym c "gm_" id)
  let M := (((M.add n1 ng gm).add n1 n2 (-gm)).add n2 ng (-gm)).add n2 n2 gm
  if r0s then
    let g := 1 / c.ρ (Cfg.sym c "r0_" id)
    (((M.add n1 n1 g).add n1 n2 (-g)).add n2 n1 (-g)).add n2 n2 g
  else M

/-- diodes, symbolic.py:448-455; a positive symbol is a real one -/
def symDiode (c : Cfg K) (M : Mat K) (id : List Char) (n1 n2 : ℕ) : Mat K :=
  let gd := c.ρ (Cfg.sym c "g" id)
  (((M.add n1 n1 gd).add n1 n2 (-gd)).add n2 n1 (-gd)).add n2 n2 gd

/-- the stamp of a square-law transistor over the terminals n1, ng, n2, nb -/
def mosStamp [DecidableEq K] (gmin gmd gmg gmb : K) : List (List K) :=
  let gmd := if gmd = 0 then gmin * 2 else gmd
  let gmg := if gmg = 0 then gmin * 2 else gmg
  let gmb := if gmb = 0 then -2 * gmin else gmb
  [[gmd, gmg, -gmd - gmb - gmg, gmb], [0, 0, 0, 0], [-gmd, -gmg, gmd + gmg + gmb, -gmb], [0, 0, 0, 0]]

/-- the ports of an EKV transistor with their conductances -/
def ekvPorts (n1 ng n2 nb : ℕ) (gmd gmg gms : K) : List ((ℕ × ℕ) × K) := [((n1, nb), gmd), ((ng, nb), gmg), ((n2, nb), gms)]

end Verif.SymDev
