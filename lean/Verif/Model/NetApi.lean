import Verif.Model.Parse
import Verif.Model.Build
import Verif.Model.Dyn

/-!
Model of the second half of the element parsers (`parse_elem_*`, netlist_parser.py:369-1072) and of `main_netlist_parser` (280-316):
what a line that was understood (`Parse.PElem`, the first half) does to the circuit. And of the same circuit made by calls of the
`add_*` methods, for which the models of `Build` and `Dyn` are used.

The circuit under construction is a `Ckt`: nodes of `circ`, the list `elements`, and the dictionary of models. In the code the models
become those of the circuit at the end (`circ.models = models`), and the elements join it at the end (`circ +=`).

`sqrt` stands for `math.sqrt` (`none`: ValueError), `tf` for making a time function from its name and its parameters.
Areas and dimensions of devices play no role here, as in `Build`.
-/

namespace Verif.NetApi
open Verif.Circuit Verif.Build Verif.Parse Verif.Netlist Verif.Small

variable (sqrt : ℚ → Option ℚ) (tf : Line × List (String × Option Val) → Option ℚ → ℚ)

/-- text of a word -/
def s (l : Line) : String := String.ofList l

/-- `abs_ac` and `arg_ac`, VSource.py:55-56, ISource.py:53-54: an AC value that is None or zero is stored as None. -/
def phasor (ac : Option ℚ) : Option ℚ := ac.bind fun a => if a = 0 then none else some a

/-- `components.sources.VSource(dc_value=dc_value, ac_value=vac)` and lines 622-624; circuit.py:634-641 -/
def source (dc ac : Option ℚ) (fn : Option (Line × List (String × Option Val))) : Src ℚ :=
  match fn with
  | none => { dc := dc, ac := phasor ac }
  | some f => { dc := dc, ac := phasor ac, timeDep := true, fn := some (tf f) }

/-- What the parsers do with the circuit. Lines: resistor 390-402, capacitor 435-443, inductor 474-482, coupling 517-538, vsource
614-627, isource 699-711, diode 768-777, mos 839-862, vcvs 886-898, ccvs 931-940, vccs 971-983, cccs 1013-1023, switch 1052-1072. -/
def place (c : Ckt ℚ) : PElem → Except PErr (Ckt ℚ)
  | .R id n1 n2 v =>
    let r1 := c.addNode (s n1)
    let r2 := r1.1.addNode (s n2)
    if v = 0 then .error .parse else .ok (r2.1.append (.R (s id) r1.2 r2.2 v))
  | .C id n1 n2 v ic =>
    let r1 := c.addNode (s n1)
    let r2 := r1.1.addNode (s n2)
    .ok (r2.1.append (.C (s id) r1.2 r2.2 v ic))
  | .L id n1 n2 v ic =>
    let r1 := c.addNode (s n1)
    let r2 := r1.1.addNode (s n2)
    .ok (r2.1.append (.L (s id) r1.2 r2.2 v ic []))
  | .K id l1 l2 k =>
    match Dyn.findPair (s l1) (s l2) c.elems 0 (none, none) with
    | (some i, some j) =>
      match c.elems[i]?, c.elems[j]? with
      | some e1, some e2 =>
        match sqrt (Dyn.indValue e1 * Dyn.indValue e2) with
        | some q =>
          let cd : Coupling ℚ := { id := s id, L1 := s l1, L2 := s l2, k := k, M := q * k }
          .ok { c with elems := (c.elems.modify i (Dyn.attach cd)).modify j (Dyn.attach cd) ++ [.K cd] }
        | none => .error .value
      | _, _ => .error .value -- not reachable, the positions are those of elements
    | _ => .error .parse
  | .V id n1 n2 dc ac fn =>
    let r1 := c.addNode (s n1)
    let r2 := r1.1.addNode (s n2)
    .ok (r2.1.append (.V (s id) r1.2 r2.2 (source tf dc ac fn)))
  | .I id n1 n2 dc ac fn =>
    let r1 := c.addNode (s n1)
    let r2 := r1.1.addNode (s n2)
    .ok (r2.1.append (.I (s id) r1.2 r2.2 (source tf dc ac fn)))
  | .E id n1 n2 sn1 sn2 v =>
    let r1 := c.addNode (s n1)
    let r2 := r1.1.addNode (s n2)
    let r3 := r2.1.addNode (s sn1)
    let r4 := r3.1.addNode (s sn2)
    .ok (r4.1.append (.E (s id) r1.2 r2.2 r3.2 r4.2 v))
  | .G id n1 n2 sn1 sn2 v =>
    let r1 := c.addNode (s n1)
    let r2 := r1.1.addNode (s n2)
    let r3 := r2.1.addNode (s sn1)
    let r4 := r3.1.addNode (s sn2)
    .ok (r4.1.append (.G (s id) r1.2 r2.2 r3.2 r4.2 v))
  | .F id n1 n2 src v =>
    let r1 := c.addNode (s n1)
    let r2 := r1.1.addNode (s n2)
    .ok (r2.1.append (.F (s id) r1.2 r2.2 (s src) v))
  | .H id n1 n2 src v =>
    let r1 := c.addNode (s n1)
    let r2 := r1.1.addNode (s n2)
    .ok (r2.1.append (.H (s id) r1.2 r2.2 (s src) v))
  | .S id n1 n2 sn1 sn2 model =>
    let r1 := c.addNode (s n1)
    let r2 := r1.1.addNode (s n2)
    let r3 := r2.1.addNode (s sn1)
    let r4 := r3.1.addNode (s sn2)
    match r4.1.model (s model) with
    | some .sw => .ok (r4.1.append (.NL (s id) r1.2 r2.2 (some (r3.2, r4.2)) [(r1.2, r2.2), (r3.2, r4.2)] [(r1.2, r2.2)]))
    | _ => .error .parse
  | .D id n1 n2 model _ _ _ =>
    let r1 := c.addNode (s n1)
    let r2 := r1.1.addNode (s n2)
    match r2.1.model (s model) with
    | some _ => .ok (r2.1.append (.NL (s id) r1.2 r2.2 none [(r1.2, r2.2)] [(r1.2, r2.2)]))
    | none => .error .parse
  | .M id nd ng ns nb model _ _ _ _ =>
    let d := c.addNode (s nd)
    let g := d.1.addNode (s ng)
    let q := g.1.addNode (s ns)
    let b := q.1.addNode (s nb)
    match b.1.model (s model) with
    | some .ekv => .ok (b.1.append (.NL (s id) d.2 q.2 none [(d.2, b.2), (g.2, b.2), (q.2, b.2)] [(d.2, q.2)]))
    | some .mosq => .ok (b.1.append (.NL (s id) d.2 q.2 none [(d.2, q.2), (g.2, q.2), (b.2, q.2)] [(d.2, q.2)]))
    | _ => .error .parse

/-- `main_netlist_parser`, for lines understood -/
def build : Ckt ℚ → List PElem → Except PErr (Ckt ℚ)
  | c, [] => .ok c
  | c, p :: ps => match place sqrt tf c p with
    | .ok c1 => build c1 ps
    | .error e => .error e

/-- A call of the API. -/
inductive Call where
  | add (op : AddOp ℚ)
  | couple (id l1 l2 : String) (k : ℚ)

/-- the call; the circuit is changed also by calls that raise -/
def call (c : Ckt ℚ) : Call → Ckt ℚ × Option Err
  | .add op => Build.add c op
  | .couple id l1 l2 k => match Dyn.addCoupling sqrt c.elems id l1 l2 k with
    | .ok els => ({ c with elems := els }, none)
    | .error e => (c, some e)

/-- calls up to the first that raises -/
def calls : Ckt ℚ → List Call → Ckt ℚ × Option Err
  | c, [] => (c, none)
  | c, k :: ks => match call sqrt c k with
    | (c1, none) => calls c1 ks
    | r => r

/-- The call a user makes for an element: same names, nodes and values; `ac_value` is 0 if it is not given. -/
def toCall : PElem → Call
  | .R id n1 n2 v => .add (.R (s id) (s n1) (s n2) v)
  | .C id n1 n2 v ic => .add (.C (s id) (s n1) (s n2) v ic)
  | .L id n1 n2 v ic => .add (.L (s id) (s n1) (s n2) v ic)
  | .K id l1 l2 k => .couple (s id) (s l1) (s l2) k
  | .V id n1 n2 dc ac fn => .add (.V (s id) (s n1) (s n2) (source tf dc (some (ac.getD 0)) fn))
  | .I id n1 n2 dc ac fn => .add (.I (s id) (s n1) (s n2) (source tf dc (some (ac.getD 0)) fn))
  | .E id n1 n2 sn1 sn2 v => .add (.E (s id) (s n1) (s n2) (s sn1) (s sn2) v)
  | .G id n1 n2 sn1 sn2 v => .add (.G (s id) (s n1) (s n2) (s sn1) (s sn2) v)
  | .F id n1 n2 src v => .add (.F (s id) (s n1) (s n2) (s src) v)
  | .H id n1 n2 src v => .add (.H (s id) (s n1) (s n2) (s src) v)
  | .S id n1 n2 sn1 sn2 model => .add (.S (s id) (s n1) (s n2) (s sn1) (s sn2) (s model))
  | .D id n1 n2 model _ _ _ => .add (.D (s id) (s n1) (s n2) (s model))
  | .M id nd ng ns nb model _ _ _ _ => .add (.M (s id) (s nd) (s ng) (s ns) (s nb) (s model))

end Verif.NetApi
