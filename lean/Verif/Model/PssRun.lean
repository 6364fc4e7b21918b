import Verif.Model.Pss
import Verif.Model.Newton
import Verif.Model.Mna

/-!
Model of the iterations of the periodic steady state analyses: the loop of `shooting_analysis` (shooting.py:176-260), the
loop of `bfpss` (bfpss.py:161-262) and the vectors of the time dependent sources of both
(`_build_Tass_static_vector`, shooting.py:279-308, and `_build_Tt`, bfpss.py:375-405).

Simplifications: exact arithmetic. A singular matrix raises `LinAlgError`: `none`. The norm is the default one,
`max(abs(v))`, which raises `ValueError` for a circuit without unknowns (here: 0). The tests for NaN
(shooting.py:229, bfpss.py:268) cannot succeed in exact arithmetic. The limit of the iterations is not 0 (10000 by
default; 0 means no limit). The initial transient (shooting.py:145-157) is the start vector given. `bfpss` is modelled
with the matrix product (a sparse matrix, see C99 for the other case) and with the index lists of lines 155-159 taken
as integers, as numpy took lists of floats when the code was written.
-/

namespace Verif.PssRun
open Matrix Verif.Circuit

section
variable {K : Type} [Field K] [LinearOrder K] {m : Nat}

/-- What the loops use of the circuit: the matrices, currents and conductances of the non-linear elements, the sources at
every point and the locked nodes. -/
structure PCirc (K : Type) (m : Nat) where
  mna : Matrix (Fin m) (Fin m) K
  D : Matrix (Fin m) (Fin m) K
  T : (Fin m → K) → Fin m → K
  J : (Fin m → K) → Matrix (Fin m) (Fin m) K
  Ts : Nat → Fin m → K
  locked : List (Nat × Nat)

/-- options.py:50-56 -/
structure Tol (K : Type) where
  ver : K
  vea : K
  ier : K
  iea : K

/-- `max(abs(v))` -/
def norm (v : Fin m → K) : K := (List.ofFn fun i => |v i|).foldl max 0

/-- `_vector_norm_wrapper`, shooting.py:263-269 -/
def wrapper (f : Nat → Fin m → K) (points : Nat) : K :=
  (List.range points).foldl (fun a i => if a < norm (f i) then norm (f i) else a) 0

/-- `MAass_variable_vector`, shooting.py:192-194 -/
def MA (c : PCirc K m) (h : K) (x : Nat → Fin m → K) (i : Nat) : Matrix (Fin m) (Fin m) K :=
  c.J (x i) + (Pss.static c.mna c.D h).1

/-- `Tass_variable_vector`, shooting.py:195-196, 355 -/
def Tass (c : PCirc K m) (h : K) (points : Nat) (x : Nat → Fin m → K) (i : Nat) : Fin m → K :=
  c.T (x i) + (((1 / h) • c.D) *ᵥ x i + c.mna *ᵥ x i + ((-1 / h) • c.D) *ᵥ x (Pss.prev points i)) + c.Ts i

open Classical in
/-- One round of the loop, shooting.py:182-218: the new points and the undamped updates. -/
noncomputable def shootStep (o : Newton.Opts K) (c : PCirc K m) (h : K) (points : Nat) (x : Nat → Fin m → K) :
    Option ((Nat → Fin m → K) × (Nat → Fin m → K)) :=
  let MB := (Pss.static c.mna c.D h).2
  if (∀ i < points, IsUnit (MA c h x i).det) ∧ IsUnit (1 - Pss.mat1 (MA c h x) MB points).det then
    let dx := Pss.dx (MA c h x) MB (Tass c h points x) points
    some (fun i => Newton.getTd o (dx i) c.locked (-1) • dx i + x i, dx)
  else none

/-- The test of lines 220-221. -/
def shootSmall (t : Tol K) (points : Nat) (x dx : Nat → Fin m → K) : Prop :=
  wrapper dx points < min t.ver t.ier * wrapper x points + min t.vea t.iea

open Classical in
/-- The loop, shooting.py:179-243, with `rem` = `shooting_max_nr_iter - iteration` and `conv_counter`. `none`: an exception,
`some none`: the limit was hit. -/
noncomputable def shootGo (o : Newton.Opts K) (t : Tol K) (c : PCirc K m) (h : K) (points : Nat) :
    Nat → Nat → (Nat → Fin m → K) → Option (Option (Nat → Fin m → K))
  | rem, conv, x =>
    match shootStep o c h points x with
    | none => none
    | some (x', dx) =>
      if shootSmall t points x' dx then
        if conv = 3 then some (some x')
        else
          match rem with
          | 0 => some none
          | r + 1 => shootGo o t c h points r (conv + 1) x'
      else
        match rem with
        | 0 => some none
        | r + 1 => shootGo o t c h points r 0 x'

/-- The loop from the points `x` of the initial transient. -/
noncomputable def shooting (o : Newton.Opts K) (t : Tol K) (c : PCirc K m) (h : K) (points maxIter : Nat)
    (x : Nat → Fin m → K) : Option (Option (Nat → Fin m → K)) :=
  shootGo o t c h points maxIter 0 x

/-! ### Brute force -/

/-- the block of point `k` -/
def part (n : Nat) (x : Nat → K) (k : Nat) : Fin n → K := fun r => x (k * n + r)

/-- `T`, bfpss.py:187-211: no entries for the first point -/
def bigT (c : PCirc K m) (x : Nat → K) : Nat → K := fun i =>
  if i / m = 0 then 0 else if hm : i % m < m then c.T (part m x (i / m)) ⟨i % m, hm⟩ else 0

/-- `J` before line 222 -/
def bigJ (c : PCirc K m) (x : Nat → K) : Nat → Nat → K := fun i j =>
  if i / m = 0 ∨ i / m ≠ j / m then 0
  else if hm : i % m < m ∧ j % m < m then c.J (part m x (i / m)) ⟨i % m, hm.1⟩ ⟨j % m, hm.2⟩ else 0

/-- entries of a matrix as a function of two numbers -/
def entries (M : Matrix (Fin m) (Fin m) K) : Nat → Nat → K := fun i j =>
  if hm : i < m ∧ j < m then M ⟨i, hm.1⟩ ⟨j, hm.2⟩ else 0

/-- `Tf + Tt`: the sources at every point but the first -/
def bigTs (c : PCirc K m) : Nat → K := fun i =>
  if i / m = 0 then 0 else if hm : i % m < m then c.Ts (i / m) ⟨i % m, hm⟩ else 0

/-- `CMAT`, line 139 -/
def cmat (c : PCirc K m) (h : K) (points : Nat) : Nat → Nat → K :=
  Pss.buildCMAT (entries c.mna) (entries c.D) h m points

/-- `residuo`, line 223 (sparse) -/
def residuo (c : PCirc K m) (h : K) (points : Nat) (x : Nat → K) : Nat → K := fun i =>
  Pss.mulVec (points * m) (cmat c h points) x i + bigT c x i + bigTs c i

/-- the matrix of line 222 -/
def bigM (c : PCirc K m) (h : K) (points : Nat) (x : Nat → K) : Matrix (Fin (points * m)) (Fin (points * m)) K :=
  fun i j => bigJ c x i j + cmat c h points i j

/-- `min(abs(td))`, lines 231-235; Python's `min` of an empty sequence cannot happen for `points > 0` -/
def bfTd (o : Newton.Opts K) (c : PCirc K m) (points : Nat) (dx : Nat → K) : K :=
  ((List.range points).map fun k => |Newton.getTd o (part m dx k) c.locked (-1)|).foldl min
    |Newton.getTd o (part m dx 0) c.locked (-1)|

open Classical in
/-- One round, lines 173-235: the new vector and the undamped update. -/
noncomputable def bfStep (o : Newton.Opts K) (c : PCirc K m) (h : K) (points : Nat) (x : Nat → K) :
    Option ((Nat → K) × (Nat → K)) :=
  if IsUnit (bigM c h points x).det then
    let d := (bigM c h points x)⁻¹ *ᵥ fun i => -residuo c h points x i
    let dx : Nat → K := fun i => if hi : i < points * m then d ⟨i, hi⟩ else 0
    some (fun i => x i + bfTd o c points dx * dx i, dx)
  else none

/-- norm of the entries of the unknowns `lo ≤ r < hi` at all points -/
def normOf (n points lo hi : Nat) (x : Nat → K) : K :=
  ((List.range points).flatMap fun k => ((List.range hi).drop lo).map fun r => |x (k * n + r)|).foldl max 0

/-- `_convergence_check`, bfpss.py:265-278, with `nv1` node voltages -/
def bfSmall (t : Tol K) (n nv1 points : Nat) (x dx : Nat → K) : Prop :=
  normOf n points 0 nv1 dx < t.ver * normOf n points 0 nv1 x + t.vea ∧
    (((List.range n).drop nv1 = [] ∨ points = 0) ∨
      normOf n points nv1 n dx < t.ier * normOf n points nv1 n x + t.iea)

open Classical in
/-- The loop of `bfpss`, lines 165-251, with `rem` = `bfpss_max_nr_iter - iteration`. -/
noncomputable def bfGo (o : Newton.Opts K) (t : Tol K) (c : PCirc K m) (h : K) (nv1 points : Nat) :
    Nat → (Nat → K) → Option (Option (Nat → K))
  | rem, x =>
    match bfStep o c h points x with
    | none => none
    | some (x', dx) =>
      if bfSmall t m nv1 points x' dx then some (some x')
      else
        match rem with
        | 0 => some none
        | r + 1 => bfGo o t c h nv1 points r x'

/-- `_build_x`, bfpss.py:337-357: `x0` at all points, zeros if it has the wrong size -/
def buildX (n points : Nat) (x0 : Option (List K)) : Nat → K := fun i =>
  match x0 with
  | some l => if l.length = n ∧ i < points * n then l.getD (i % n) 0 else 0
  | none => 0

end

/-! ### Time dependent sources -/

section
variable {α : Type} [Field α]

/-- One element, shooting.py:290-302; positions of the reduced system. -/
def tassStep (nv : Nat) (time : α) (s : Mna.TtState α) (e : Elem α) : Except Err (Mna.TtState α) :=
  match (match e with
    | .V _ _ _ src =>
      if src.timeDep then
        match src.eval (some time) with
        | some v => (Except.ok { s with Tt := Mna.Vec.put s.Tt (nv - 1 + s.vEq) (-v) } : Except Err (Mna.TtState α))
        | none => .error .type
      else .ok s
    | .I _ n1 n2 src =>
      if src.timeDep then
        match src.eval (some time) with
        | some i =>
          let t1 := if n1 = 0 then s.Tt else Mna.Vec.add s.Tt (n1 - 1) i
          let t2 := if n2 = 0 then t1 else Mna.Vec.add t1 (n2 - 1) (-i)
          .ok { s with Tt := t2 }
        | none => .error .type
      else .ok s
    | _ => .ok s) with
  | .error x => .error x
  | .ok s' => .ok (if e.vde then { s' with vEq := s'.vEq + 1 } else s')

/-- `Tass_vector[index]`, shooting.py:285-305, for the reduced constant vector `Tf` -/
def tassVector (circ : List (Elem α)) (nv : Nat) (Tf : Mna.Vec α) (step : α) (index : Nat) : Except Err (Mna.Vec α) :=
  match Mna.loop (tassStep nv ((index : α) * step)) ⟨fun _ => 0, 0⟩ circ with
  | .ok s => .ok fun r => Tf r + s.Tt r
  | .error x => .error x

/-- One element of the loop of `_build_Tt`, bfpss.py:385-400, for the point that starts at `base` -/
def bfTtStep (nv base : Nat) (time : α) (s : Mna.TtState α) (e : Elem α) : Except Err (Mna.TtState α) :=
  match (match e with
    | .V _ _ _ src =>
      if src.timeDep then
        match src.eval (some time) with
        | some v => (Except.ok { s with Tt := Mna.Vec.put s.Tt (base + nv - 1 + s.vEq) (-v) } : Except Err (Mna.TtState α))
        | none => .error .type
      else .ok s
    | .I _ n1 n2 src =>
      if src.timeDep then
        match src.eval (some time) with
        | some i =>
          let t1 := if n1 = 0 then s.Tt else Mna.Vec.add s.Tt (base + n1 - 1) i
          let t2 := if n2 = 0 then t1 else Mna.Vec.add t1 (base + n2 - 1) (-i)
          .ok { s with Tt := t2 }
        | none => .error .type
      else .ok s
    | _ => .ok s) with
  | .error x => .error x
  | .ok s' => .ok (if e.vde then { s' with vEq := s'.vEq + 1 } else s')

/-- `_build_Tt`, bfpss.py:375-405 -/
def buildTt (circ : List (Elem α)) (nv n points : Nat) (step : α) : Except Err (Mna.Vec α) :=
  Mna.loop (fun (T : Mna.Vec α) (index : Nat) =>
    match Mna.loop (bfTtStep nv (index * n) ((index : α) * step)) ⟨T, 0⟩ circ with
    | .ok s => .ok s.Tt
    | .error x => .error x) (fun _ => 0) ((List.range points).drop 1)

end
end Verif.PssRun
