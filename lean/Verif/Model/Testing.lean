import Verif.Model.Circuit
import Mathlib.Algebra.Order.Field.Basic
import Mathlib.Algebra.Order.Group.Unbundled.Abs

/-!
Model of the classes that compare simulations with stored references, `NetlistTest` and `APITest` (testing.py:407-896), and of
the comparison of poles and zeros (`_check_singularities`, pz.py:345-355).

Simplifications: numbers belong to an ordered field, a complex value is the pair of its parts. The spline of scipy is a parameter
that may refuse its points. Symbolic expressions are compared by a parameter (testing.py:625-628), dictionaries of symbolic
results are not nested. The poles and zeros of a reference are taken as already read back from their columns (testing.py:603-609).
Printing and time measurements are left out.
-/

namespace Verif.Testing

/-- the exceptions of a test -/
inductive Bad where
  | assertion | key | value | unbound | index | attr | os | skip
deriving DecidableEq, Repr

variable {K E : Type}

/-- values by name, in the order of the file -/
abbrev Cols (K : Type) := List (String × List (K × K))

/-- a result with an abscissa: DC, AC, transient, PSS -/
structure Table (K : Type) where
  x : List K
  cols : Cols K

/-- a reference read from a file, with the name of its abscissa (testing.py:537-551) -/
structure Ref (K : Type) where
  xname : String
  cols : Cols K

inductive Res (K E : Type) where
  | table (t : Table K)
  | op (v : List (String × K))
  | pz (poles zeros : List (K × K))
  | sym (d : List (String × E))
  | tuple (l : List (Res K E))
  | none

inductive RefData (K E : Type) where
  | csv (r : Ref K)
  | op (v : List (String × K))
  | pz (poles zeros : List (K × K))
  | sym (d : List (String × E))
  | tuple (l : List (RefData K E))

/-- what a test is given: tolerances, interpolation, comparison of complex numbers and of expressions -/
structure Env (K E : Type) where
  er : K
  ea : K
  spline : List K → List K → Option (K → K)
  near : K × K → K × K → Bool
  same : E → E → Bool

section
variable [Field K] [LinearOrder K]

/-- `np.allclose(x, ref, rtol, atol)` for one value, used by `ok` (testing.py:891-896) -/
def close (er ea x ref : K) : Bool := decide (|x - ref| ≤ ea + er * |ref|)

/-- interpolation of both curves and comparison at the abscissae of the result (testing.py:584-589 and 595-597) -/
def compare (env : Env K E) (x refx a b : List K) : Except Bad Unit :=
  match env.spline x a with
  | none => .error .value
  | some f => match env.spline refx b with
    | none => .error .value
    | some g => if x.all fun u => close env.er env.ea (f u) (g u) then .ok () else .error .assertion

/-- `np.any(np.iscomplex(...))` -/
def isComplex (l : List (K × K)) : Bool := l.any fun z => decide (z.2 ≠ 0)

/-- one column of a result with abscissa (testing.py:579-597 and 825-843) -/
def checkCol (env : Env K E) (x : List K) (ref : Ref K) (k : String) (col : List (K × K)) : Except Bad Unit :=
  if col = x.map (fun u => (u, 0)) then .ok () else
  match ref.cols.lookup ref.xname, ref.cols.lookup k with
  | some rx, some rc =>
    let refx := rx.map Prod.fst
    if isComplex col || isComplex rc then
      match compare env x refx (col.map Prod.fst) (rc.map Prod.fst) with
      | .error e => .error e
      | .ok _ => compare env x refx (col.map Prod.snd) (rc.map Prod.snd)
    else compare env x refx (col.map Prod.fst) (rc.map Prod.fst)
  | _, _ => .error .key

def checkCols (env : Env K E) (x : List K) (ref : Ref K) : Cols K → Except Bad Unit
  | [] => .ok ()
  | (k, col) :: l => match checkCol env x ref k col with
    | .error e => .error e
    | .ok _ => checkCols env x ref l

/-- operating points (testing.py:598-601 and 844-847) -/
def checkOp (env : Env K E) (ref : List (String × K)) : List (String × K) → Except Bad Unit
  | [] => .ok ()
  | (k, v) :: l => match ref.lookup k with
    | none => .error .assertion
    | some r => if close env.er env.ea v r then checkOp env ref l else .error .assertion
end

/-- `_check_singularities` (pz.py:345-355); `si` is the loop variable left over from the previous round -/
def checkSing {C : Type} (near : C → C → Bool) (si : Option Nat) : List C → List C → Except Bad Unit
  | [], ref => if ref.isEmpty then .ok () else .error .assertion
  | i :: res, ref => match ref.findIdx? (near i) with
    | some k => checkSing near (some k) res (ref.eraseIdx k)
    | none => if ref.isEmpty then (if si.isNone then .error .unbound else .error .index) else .error .assertion

/-- poles and zeros (testing.py:602-614) -/
def checkPz (env : Env K E) (poles zeros rp rz : List (K × K)) : Except Bad Unit :=
  if poles.length ≠ rp.length then .error .assertion else
  match checkSing env.near none poles rp with
  | .error e => .error e
  | .ok _ => if zeros.length ≠ rz.length then .error .assertion else checkSing env.near none zeros rz

/-- symbolic results (testing.py:620-630) -/
def checkSym (env : Env K E) (ref : List (String × E)) : List (String × E) → Except Bad Unit
  | [] => .ok ()
  | (k, e) :: l => match ref.lookup k with
    | none => .error .assertion
    | some r => if env.same e r then checkSym env ref l else .error .assertion

section
variable [Field K] [LinearOrder K]

/-- `_check` for results that are no list or tuple; a reference of another kind has no such names -/
def check1 (env : Env K E) : Res K E → RefData K E → Except Bad Unit
  | .none, _ => .ok ()
  | .table t, .csv r => checkCols env t.x r t.cols
  | .op v, .op r => checkOp env r v
  | .pz p z, .pz rp rz => checkPz env p z rp rz
  | .sym d, .sym r => checkSym env r d
  | _, _ => .error .key

mutual
/-- `NetlistTest._check` (testing.py:575-630): the items of a tuple one by one with `zip` -/
def check (env : Env K E) : Res K E → RefData K E → Except Bad Unit
  | .tuple l, .tuple r => checkZip env l r
  | a, b => check1 env a b

def checkZip (env : Env K E) : List (Res K E) → List (RefData K E) → Except Bad Unit
  | a :: l, b :: r => match check env a b with
    | .error e => .error e
    | .ok _ => checkZip env l r
  | _, _ => .ok ()
end

/-- `APITest._check` (testing.py:821-862): the first item of a tuple only -/
def checkApi (env : Env K E) : Res K E → RefData K E → Except Bad Unit
  | .tuple (a :: _), r => check1 env a r
  | .tuple [], _ => .error .index
  | a, r => check1 env a r

/-- the loop of `test` over the results (testing.py:635-638 and 867-870) -/
def compareAll (chk : Res K E → RefData K E → Except Bad Unit) (refs : List (String × RefData K E)) :
    List (String × Res K E) → Except Bad Unit
  | [] => .ok ()
  | (t, r) :: l => match refs.lookup t with
    | none => .error .assertion
    | some d => match chk r d with
      | .error e => .error e
      | .ok _ => compareAll chk refs l
end

/-! ### Reference runs -/

/-- the files -/
abbrev Disk (δ : Type) := String → Option δ

/-- `os.rename` -/
def rename {δ : Type} (d : Disk δ) (a b : String) : Except Bad (Disk δ) :=
  match d a with
  | none => .error .os
  | some c => .ok fun p => if p = b then some c else if p = a then none else d p

/-- `ref_run` (testing.py:521-527 and 774-780): some reference is missing -/
def refRun {δ : Type} (d : Disk δ) (refs : List (String × String)) : Bool := refs.any fun r => (d r.2).isNone

/-- the end of a reference run (testing.py:639-648): the results become the references. `out` is the file of an analysis. -/
def store {δ : Type} (out : String → String) : Disk δ → List (String × String) → Except Bad (Disk δ)
  | d, [] => .ok d
  | d, (t, f) :: l => match rename d (out t) f with
    | .error e => .error e
    | .ok d' => store out d' l

/-- `test` (testing.py:632-648): `write` is what the simulation leaves on the disk, `cmp` the comparison -/
def test {δ : Type} (out : String → String) (refs : List (String × String)) (write : Disk δ → Disk δ)
    (cmp : Disk δ → Except Bad Unit) (d : Disk δ) : Except Bad (Disk δ) :=
  if refRun d refs then store out (write d) refs
  else match cmp d with
    | .error e => .error e
    | .ok _ => .ok (write d)

/-! ### Simulation options -/

/-- the options by name -/
abbrev Opts (V : Type) := String → Option V

/-- `_set_sim_opts` (testing.py:443-449): options and the values to be restored; an unknown option raises -/
def setOpts {V : Type} : Opts V → Opts V → List (String × V) → Opts V × Opts V × Option Bad
  | o, back, [] => (o, back, none)
  | o, back, (k, v) :: l => match o k with
    | none => (o, back, some .value)
    | some old => setOpts (fun n => if n = k then some v else o n) (fun n => if n = k then some old else back n) l

/-- `_reset_sim_opts` (testing.py:451-453) -/
def resetOpts {V : Type} (o back : Opts V) : Opts V := fun n => match back n with
  | some v => some v
  | none => o n

/-- `tearDown` (testing.py:650-657): the files are removed first, a missing one raises before the options are restored -/
def tearDown {V δ : Type} (o back : Opts V) (d : Disk δ) (refRun : Bool) (files : List String) : Opts V × Option Bad :=
  if refRun then (resetOpts o back, none)
  else match files with
    | [] => (resetOpts o back, none)
    | f :: l => match d f with
      | none => (o, some .os)
      | some _ => tearDown o back (fun p => if p = f then none else d p) refRun l

/-- a netlist test between `setUp` and the end of `tearDown`: the options seen by the simulation, those left behind, what was
raised by `tearDown`. `sim` says which files exist after the simulation. -/
def netlistTest {V δ : Type} (o : Opts V) (opts : List (String × V)) (sim : Opts V → Disk δ) (d : Disk δ) (refRun : Bool)
    (files : List String) : Option (Opts V) × Opts V × Option Bad :=
  match setOpts o (fun _ => none) opts with
  | (o', back, some _) => let (o'', e) := tearDown o' back d refRun files; (none, o'', e)
  | (o', back, none) => let (o'', e) := tearDown o' back (sim o') refRun files; (some o', o'', e)

/-- what happens to API tests, whose options are set by the constructor (testing.py:694-713): making one, running one, ending
one. `objs` holds the values to be restored by number. -/
inductive Ev (V : Type) where
  | make (opts : List (String × V))
  | run (n : Nat)
  | done (n : Nat)

structure Sess (V : Type) where
  opts : Opts V
  objs : List (Opts V)
  seen : List (Nat × Opts V)

def Sess.step {V : Type} (s : Sess V) : Ev V → Sess V
  | .make l => match setOpts s.opts (fun _ => none) l with
    | (o, back, none) => { s with opts := o, objs := s.objs ++ [back] }
    | (o, _, some _) => { s with opts := o }
  | .run n => { s with seen := s.seen ++ [(n, s.opts)] }
  | .done n => match s.objs[n]? with
    | some back => { s with opts := resetOpts s.opts back }
    | none => s

/-- `rmfiles` of an API test (testing.py:761-769): files of the analyses to be removed, `none` stands for no file. `/tmp/` is
compared with four characters. -/
def rmfiles : List (String × Option (List Char)) → List (List Char)
  | [] => []
  | (_, none) :: l => rmfiles l
  | (t, some f) :: l =>
    if f ≠ "stdout".toList ∧ ¬ (5 < f.length ∧ f.take 4 = "/tmp/".toList) then
      f :: (if t = "op" then [f ++ "info".toList] else []) ++ rmfiles l
    else rmfiles l

/-- A skipped test (testing.py:481-493, 553-559, 650-654): `setUp` returns before it sets `ref_run`, the test raises `SkipTest`,
then `tearDown` reads `ref_run`. The pair of what the test and what `tearDown` raise. -/
def skipped (refRun : Option Bool) : Option Bad × Option Bad :=
  (some .skip, match refRun with
    | none => some .attr
    | some _ => none)

end Verif.Testing
