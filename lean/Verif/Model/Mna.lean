import Verif.Model.Circuit
import Mathlib.Algebra.BigOperators.Group.Finset.Basic

/-!
Model of the assembly of the MNA system (dc_analysis.py), of the vector of
time-dependent sources (`Tt`), of the AC constant vector and of the Gmin matrix.

Matrices are index functions `Nat → Nat → α` that are zero outside their size, so
`expand_matrix` (utilities.py:49-76), which appends a zero row/column, only
increments the size.
-/

namespace Verif.Mna
open Verif.Circuit

variable {α : Type} [Field α]

abbrev Mat (α : Type) := Nat → Nat → α
abbrev Vec (α : Type) := Nat → α

/-- `M[i, j] = v` -/
def Mat.put (M : Mat α) (i j : Nat) (v : α) : Mat α :=
  fun a b => if a = i ∧ b = j then v else M a b

/-- `M[i, j] = M[i, j] + v` -/
def Mat.add (M : Mat α) (i j : Nat) (v : α) : Mat α := M.put i j (M i j + v)

/-- `N[i] = v` -/
def Vec.put (N : Vec α) (i : Nat) (v : α) : Vec α := fun a => if a = i then v else N a

/-- `N[i] = N[i] + v` -/
def Vec.add (N : Vec α) (i : Nat) (v : α) : Vec α := Vec.put N i (N i + v)

/-- State of the assembly: current size, matrix, constant vector. -/
structure Sys (α : Type) where
  size : Nat
  M : Mat α
  N : Vec α

/-- First loop of `generate_mna_and_N`, dc_analysis.py:986-1019.
`-1.0*None`, `0 + None` raise `TypeError`. -/
def stamp1 (s : Sys α) : Elem α → Except Err (Sys α)
  | .R _ n1 n2 r =>
    let g := 1 / r
    .ok { s with M := (((s.M.add n1 n1 g).add n1 n2 (-g)).add n2 n1 (-g)).add n2 n2 g }
  | .G _ n1 n2 sn1 sn2 a =>
    .ok { s with M := (((s.M.add n1 sn1 a).add n1 sn2 (-a)).add n2 sn1 (-a)).add n2 sn2 a }
  | .I _ n1 n2 src =>
    if src.timeDep then .ok s
    else match src.eval none with
      | some i => .ok { s with N := Vec.add (Vec.add s.N n1 i) n2 (-i) }
      | none => .error .type
  | _ => .ok s

/-- Second loop of `generate_mna_and_N`, dc_analysis.py:1024-1054: voltage-defined
elements get a new row and column `index`. `circ` is needed for look-ups,
`nv` is `n_of_nodes`. Writing to a column that does not exist yet raises `IndexError`. -/
def stamp2 (circ : List (Elem α)) (nv : Nat) (s : Sys α) (e : Elem α) : Except Err (Sys α) :=
  let kcl (n1 n2 : Nat) : Sys α :=
    { s with
      size := s.size + 1
      M := (((s.M.put n1 s.size 1).put n2 s.size (-1)).put s.size n1 1).put s.size n2 (-1) }
  match e with
  | .V _ n1 n2 src =>
    if src.timeDep then .ok (kcl n1 n2)
    else match src.eval none with
      | some v => .ok { kcl n1 n2 with N := Vec.put s.N s.size (-v) }
      | none => .error .type
  | .E _ n1 n2 sn1 sn2 a =>
    .ok { kcl n1 n2 with
          M := ((kcl n1 n2).M.put s.size sn1 (-a)).put s.size sn2 a }
  | .L _ n1 n2 .. => .ok (kcl n1 n2)
  | .H _ n1 n2 src a =>
    match findVdeIndex circ src with
    | .ok k =>
      if nv + k < s.size + 1 then
        .ok { kcl n1 n2 with M := (kcl n1 n2).M.put s.size (nv + k) a }
      else .error .index
    | .error x => .error x
  | _ => .ok s

/-- Third loop of `generate_mna_and_N`, dc_analysis.py:1057-1061: current-controlled
current sources. -/
def stamp3 (circ : List (Elem α)) (nv : Nat) (s : Sys α) : Elem α → Except Err (Sys α)
  | .F _ n1 n2 src a =>
    match findVdeIndex circ src with
    | .ok k => .ok { s with M := (s.M.add n1 (nv + k) a).add n2 (nv + k) (-a) }
    | .error x => .error x
  | _ => .ok s

/-- A Python `for` loop that may raise. -/
def loop {σ ε ι : Type} (f : σ → ι → Except ε σ) : σ → List ι → Except ε σ
  | s, [] => .ok s
  | s, e :: r => match f s e with
    | .ok s' => loop f s' r
    | .error x => .error x

/-- `generate_mna_and_N`, dc_analysis.py:949-1069. `nv` is `circ.get_nodes_number()`.
The final `check_ground_paths` only prints (modelled separately). -/
def generate (circ : List (Elem α)) (nv : Nat) : Except Err (Sys α) :=
  match loop stamp1 ⟨nv, fun _ _ => 0, fun _ => 0⟩ circ with
  | .error x => .error x
  | .ok s1 => match loop (stamp2 circ nv) s1 circ with
    | .error x => .error x
    | .ok s2 => loop (stamp3 circ nv) s2 circ

/-- `mna.dot(x)` at row `r`, for a matrix of size `S`. -/
def mulVec (S : Nat) (M : Mat α) (x : Vec α) (r : Nat) : α :=
  ∑ j ∈ Finset.range S, M r j * x j

/-- Time-dependent sources in `dc_solve`, dc_analysis.py:220-236. The vector is the
*reduced* one in the code; here it is indexed like the unreduced unknowns
(index 0 is the reference row, where the code writes nothing). -/
structure TtState (α : Type) where
  Tt : Vec α
  vEq : Nat

def ttStep (nv : Nat) (time : Option α) (s : TtState α) (e : Elem α) :
    Except Err (TtState α) :=
  match (match e with
    | .V _ _ _ src =>
      if src.timeDep then
        match src.eval time with
        | some v => (Except.ok { s with Tt := Vec.put s.Tt (nv + s.vEq) (-v) } : Except Err (TtState α))
        | none => .error .type
      else .ok s
    | .I _ n1 n2 src =>
      if src.timeDep then
        match src.eval time with
        | some i =>
          let t1 := if n1 = 0 then s.Tt else Vec.add s.Tt n1 i
          let t2 := if n2 = 0 then t1 else Vec.add t1 n2 (-i)
          .ok { s with Tt := t2 }
        | none => .error .type
      else .ok s
    | _ => .ok s) with
  | .error x => .error x
  | .ok s' => .ok (if e.vde then { s' with vEq := s'.vEq + 1 } else s')

/-- The whole `Tt` vector. -/
def genTt (circ : List (Elem α)) (nv : Nat) (time : Option α) : Except Err (Vec α) :=
  match loop (ttStep nv time) ⟨fun _ => 0, 0⟩ circ with
  | .ok s => .ok s.Tt
  | .error x => .error x

/-- First loop of `_generate_Nac`, ac.py:397-404. -/
def nac1 (N : Vec α) : Elem α → Vec α
  | .I _ n1 n2 src => match src.ac with
    | some p => Vec.add (Vec.add N n1 p) n2 (-p)
    | none => N
  | _ => N

/-- Second loop of `_generate_Nac`, ac.py:408-413; state is (size, vector). -/
def nac2 (s : Nat × Vec α) (e : Elem α) : Nat × Vec α :=
  if e.vde then
    match e with
    | .V _ _ _ src => match src.ac with
      | some p => (s.1 + 1, Vec.put s.2 s.1 (-p))
      | none => (s.1 + 1, s.2)
    | _ => (s.1 + 1, s.2)
  else s

/-- `_generate_Nac`, ac.py:380-414. -/
def genNac (circ : List (Elem α)) (nv : Nat) : Nat × Vec α :=
  circ.foldl nac2 (nv, circ.foldl nac1 (fun _ => 0))

/-- `build_gmin_matrix`, dc_analysis.py:323-351 (reduced: row/column `i` is node `i+1`). -/
def gminMatrix (nv : Nat) (gmin : α) : Mat α :=
  (List.range (nv - 1)).foldl (fun (M : Mat α) i => M.put i i gmin) (fun _ _ => 0)

end Verif.Mna
