import Verif.Model.Netlist
import Verif.Model.Directive

/-!
Model of the parsers of element lines, netlist_parser.py:369-1110 (all but user-defined
elements), of `main_netlist_parser` (278-316, for lines other than subcircuit calls), and of
`get_netlist_elem_line` (Component.py:166, Inductor.py:135, sources/*.py, diode.py:232,
mosq.py:421, ekv.py:354, switch.py:264).

A parser gets the words of the line. Elements keep the external names of their nodes;
`circ.add_node` is modelled in `Nodes`, and in `Subckt` for subcircuits. The mutual inductance
M = K·sqrt(L1·L2) is left out, as is the check of the type of a model. `KeyError` raised in a
parser becomes `NetlistParseError` in `main_netlist_parser` (no parser raises it here).
-/

namespace Verif.Parse
open Verif.Small Verif.Netlist

/-- Exceptions. -/
inductive PErr where
  | parse | value | index | type
deriving DecidableEq, Repr

/-- A parsed element. -/
inductive PElem where
  | R (id n1 n2 : Line) (v : ℚ)
  | C (id n1 n2 : Line) (v : ℚ) (ic : Option ℚ)
  | L (id n1 n2 : Line) (v : ℚ) (ic : Option ℚ)
  | K (id l1 l2 : Line) (k : ℚ)
  | V (id n1 n2 : Line) (dc ac : Option ℚ) (fn : Option (Line × List (String × Option Val)))
  | I (id n1 n2 : Line) (dc ac : Option ℚ) (fn : Option (Line × List (String × Option Val)))
  | E (id n1 n2 sn1 sn2 : Line) (v : ℚ)
  | G (id n1 n2 sn1 sn2 : Line) (v : ℚ)
  | F (id n1 n2 src : Line) (v : ℚ)
  | H (id n1 n2 src : Line) (v : ℚ)
  | S (id n1 n2 sn1 sn2 model : Line)
  | D (id n1 n2 model : Line) (area ic : Option ℚ) (off : Bool)
  | M (id nd ng ns nb model : Line) (w l m n : ℚ)
deriving DecidableEq, Repr

/-- `convert_units` of a text. -/
def units (s : Line) : Except PErr ℚ :=
  match Units.convertUnits s with
  | .ok x => .ok x
  | .error .value => .error .value
  | .error .parse => .error .parse

/-- `convert_units` of what `parse_param_value_from_string` returned: numbers are kept. -/
def unitsVal : Val → Except PErr ℚ
  | .num x => .ok x
  | .text s => units s
  | .bool _ => .error .type

/-- `parse_param_value_from_string` with number values. -/
def param (s : Line) : Except PErr (Line × Val) :=
  match paramValue s .float with
  | some r => .ok r
  | none => .error .parse

/-- `line_elements[k][0] == '*'` (`none`: `IndexError`; words are never empty). -/
def commentAt (t : List Line) (k : Nat) : Option Bool :=
  t[k]?.map fun w => w.head? == some '*'

/-- The usual test for surplus words (`none`: accepted). -/
def surplus (t : List Line) (need : Nat) (look : Nat) : Option PErr :=
  if t.length < need then some .parse
  else if t.length > need then
    match commentAt t look with
    | none => some .index
    | some c => if c then none else some .parse
  else none

def parseR (t : List Line) : Except PErr PElem :=
  match surplus t 4 4 with
  | some e => .error e
  | none => do
    let v ← units t[3]!
    if v = 0 then .error .parse
    else .ok (.R t[0]! t[1]! t[2]! v)

/-- The optional initial condition of capacitors and inductors. -/
def parseIc (t : List Line) : Except PErr (Option ℚ) :=
  if t.length = 5 ∧ commentAt t 4 ≠ some true then do
    let (l, v) ← param t[4]!
    if l = "ic".toList then some <$> unitsVal v
    else .error .parse
  else .ok none

def parseC (t : List Line) : Except PErr PElem :=
  if t.length < 4 ∨
      (t.length > 5 ∧ commentAt t 5 ≠ some true ∧ commentAt t 4 ≠ some true) then .error .parse
  else do
    let ic ← parseIc t
    let v ← units t[3]!
    .ok (.C t[0]! t[1]! t[2]! v ic)

def parseL (t : List Line) : Except PErr PElem :=
  if t.length < 4 then .error .parse
  else
    match (if t.length > 5 then surplus t 5 6 else none) with
    | some e => .error e
    | none => do
      let ic ← parseIc t
      let v ← units t[3]!
      .ok (.L t[0]! t[1]! t[2]! v ic)

/-- The coupling factor: a number or `k=` a number. -/
def parseKvalue (s : Line) : Except PErr ℚ :=
  match units s with
  | .ok x => .ok x
  | .error .value => do
    let (l, v) ← param s
    if l ≠ "k".toList then .error .parse else unitsVal v
  | .error e => .error e

/-- The search for the two inductors among the elements parsed so far. -/
def foundInductors (els : List PElem) (l1 l2 : Line) : Bool :=
  let isL (n : Line) (e : PElem) : Bool :=
    match e with
    | .L id _ _ _ _ => id == n
    | _ => false
  els.any (isL l1) && els.any (fun e => !isL l1 e && isL l2 e)

def parseK (els : List PElem) (t : List Line) : Except PErr PElem :=
  match surplus t 4 5 with
  | some e => .error e
  | none => do
    let k ← parseKvalue t[3]!
    if foundInductors els t[1]! t[2]! then .ok (.K t[0]! t[1]! t[2]! k)
    else .error .parse

/-- Number of words taken by a time function, lines 573-585 and 650-662. -/
def paramNumber (v : Line) : Nat :=
  if v = "pulse".toList then 7
  else if v = "exp".toList then 6
  else 5

/-- `parse_time_function`: the type and the bound parameters, in the order of the
specification. -/
def timeFunction (ty : Line) (t : List Line) : Except PErr (Line × List (String × Option Val)) :=
  match Directive.timeSpecs (String.ofList ty) with
  | none => .error .parse
  | some spec =>
    match Directive.bind spec t (fun _ => none) with
    | none => .error .parse
    | some d => .ok (ty, spec.map fun p => (p.dest, (d p.dest).getD none))

structure SrcState where
  dc : Option ℚ := none
  ac : Option ℚ := none
  fn : Option (Line × List (String × Option Val)) := none

/-- The loop of `parse_elem_vsource`/`parse_elem_isource` over the words from index 3.
`dc`, `ac`: names of the value parameters; `strict`: the end of the line is tested with `==`
(current sources), so that stepping over it raises `IndexError`. -/
def srcLoop (dc ac : Line) (strict : Bool) : Nat → List Line → SrcState → Except PErr SrcState
  | 0, _, s => .ok s
  | _, [], s => .ok s
  | fuel + 1, w :: rest, s =>
    if w.head? = some '*' then .ok s
    else do
      let (l, v) ← param w
      if l = "type".toList then
        match v with
        | .text ty =>
          if ty = dc ∨ ty = ac then
            if s.fn.isSome then .error .parse else srcLoop dc ac strict fuel rest s
          else if ty = "pulse".toList ∨ ty = "exp".toList ∨ ty = "sin".toList ∨
              ty = "sffm".toList ∨ ty = "am".toList then
            if s.fn.isSome then .error .parse
            else do
              let f ← timeFunction ty (rest.take (paramNumber ty))
              if strict ∧ rest.length < paramNumber ty then .error .index
              else srcLoop dc ac strict fuel (rest.drop (paramNumber ty)) { s with fn := some f }
          else .error .parse
        | _ => .error .parse
      else if l = dc then do
        let x ← unitsVal v
        srcLoop dc ac strict fuel rest { s with dc := some x }
      else if l = ac then do
        let x ← unitsVal v
        srcLoop dc ac strict fuel rest { s with ac := some x }
      else .error .parse

def parseV (t : List Line) : Except PErr PElem :=
  if t.length < 3 then .error .parse
  else do
    let s ← srcLoop "vdc".toList "vac".toList false t.length (t.drop 3) {}
    if s.dc = none ∧ s.fn = none then .error .parse
    else .ok (.V t[0]! t[1]! t[2]! s.dc s.ac s.fn)

def parseI (t : List Line) : Except PErr PElem :=
  if t.length < 3 then .error .parse
  else do
    let s ← srcLoop "idc".toList "iac".toList true t.length (t.drop 3) {}
    if s.dc = none ∧ s.fn = none then .error .parse
    else .ok (.I t[0]! t[1]! t[2]! s.dc s.ac s.fn)

structure DState where
  area : Option ℚ := none
  ic : Option ℚ := none
  off : Bool := false

/-- The loop of `parse_elem_diode`. The value has been made a number before `off` asks for
its length: `TypeError`. -/
def dLoop : List Line → DState → Except PErr DState
  | [], s => .ok s
  | w :: rest, s =>
    if w.head? = some '*' then .ok s
    else do
      let (l, v) ← param w
      let x ← unitsVal v
      if l = "area".toList then dLoop rest { s with area := some x }
      else if l = "t".toList then dLoop rest s
      else if l = "ic".toList then dLoop rest { s with ic := some x }
      else if l = "off".toList then .error .type
      else .error .parse

def parseD (models : List Line) (t : List Line) : Except PErr PElem :=
  if t.length < 4 then .error .parse
  else do
    let s ← dLoop (t.drop 4) {}
    if models.contains t[3]! then .ok (.D t[0]! t[1]! t[2]! t[3]! s.area s.ic s.off)
    else .error .parse

structure MState where
  w : Option ℚ := none
  l : Option ℚ := none
  m : ℚ := 1
  n : ℚ := 1

def mLoop : List Line → MState → Except PErr MState
  | [], s => .ok s
  | t :: rest, s =>
    if t.head? = some '*' then .ok s
    else do
      let (l, v) ← param t
      if l = "w".toList then do
        let x ← unitsVal v
        mLoop rest { s with w := some x }
      else if l = "l".toList then do
        let x ← unitsVal v
        mLoop rest { s with l := some x }
      else if l = "m".toList then do
        let x ← unitsVal v
        mLoop rest { s with m := x }
      else if l = "n".toList then do
        let x ← unitsVal v
        mLoop rest { s with n := x }
      else .error .parse

def parseM (models : List Line) (t : List Line) : Except PErr PElem :=
  if t.length < 6 then .error .parse
  else do
    let s ← mLoop (t.drop 6) {}
    match s.w, s.l with
    | some w, some l =>
      if models.contains t[5]! then .ok (.M t[0]! t[1]! t[2]! t[3]! t[4]! t[5]! w l s.m s.n)
      else .error .parse
    | _, _ => .error .parse

def parseE (t : List Line) : Except PErr PElem :=
  match surplus t 6 6 with
  | some e => .error e
  | none => do
    let v ← units t[5]!
    .ok (.E t[0]! t[1]! t[2]! t[3]! t[4]! v)

def parseG (t : List Line) : Except PErr PElem :=
  match surplus t 6 6 with
  | some e => .error e
  | none => do
    let v ← units t[5]!
    .ok (.G t[0]! t[1]! t[2]! t[3]! t[4]! v)

def parseH (t : List Line) : Except PErr PElem :=
  match surplus t 5 5 with
  | some e => .error e
  | none => do
    let v ← units t[4]!
    .ok (.H t[0]! t[1]! t[2]! t[3]! v)

def parseF (t : List Line) : Except PErr PElem :=
  match surplus t 5 5 with
  | some e => .error e
  | none => do
    let v ← units t[4]!
    .ok (.F t[0]! t[1]! t[2]! t[3]! v)

def parseS (models : List Line) (t : List Line) : Except PErr PElem :=
  match surplus t 6 6 with
  | some e => .error e
  | none =>
    if models.contains t[5]! then .ok (.S t[0]! t[1]! t[2]! t[3]! t[4]! t[5]!)
    else .error .parse

/-- The dictionary `parse_function`, lines 280-296, applied to the first letter of the line.
`models`: the names of the known models; `els`: the elements parsed so far. -/
def parseElem (models : List Line) (els : List PElem) (t : List Line) : Except PErr PElem :=
  match t with
  | ('c' :: _) :: _ => parseC t
  | ('d' :: _) :: _ => parseD models t
  | ('e' :: _) :: _ => parseE t
  | ('f' :: _) :: _ => parseF t
  | ('g' :: _) :: _ => parseG t
  | ('h' :: _) :: _ => parseH t
  | ('i' :: _) :: _ => parseI t
  | ('k' :: _) :: _ => parseK els t
  | ('l' :: _) :: _ => parseL t
  | ('m' :: _) :: _ => parseM models t
  | ('r' :: _) :: _ => parseR t
  | ('s' :: _) :: _ => parseS models t
  | ('v' :: _) :: _ => parseV t
  | _ => .error .parse

/-- `main_netlist_parser` over lines already split into words. -/
def parseAll (models : List Line) : List (List Line) → List PElem → Except PErr (List PElem)
  | [], els => .ok els
  | t :: rest, els => do
    let e ← parseElem models els t
    parseAll models rest (els ++ [e])

/-- `get_netlist_elem_line`, as words. `fmt` stands for `%g` and for `str` of a number, `shown`
for `str` of a time function; the state printed for a switch and the temperature of a diode are
left at their usual values (`True`, not set). -/
def elemLine (fmt : ℚ → Line) (shown : Line × List (String × Option Val) → List Line) :
    PElem → List Line
  | .R id n1 n2 v => [id, n1, n2, fmt v]
  | .C id n1 n2 v _ => [id, n1, n2, fmt v]
  | .L id n1 n2 v _ => [id, n1, n2, fmt v]
  | .K id l1 l2 k => [id, l1, l2, fmt k]
  | .V id n1 n2 dc ac fn =>
    [id, n1, n2] ++ (match dc with
      | some x => ["type=vdc".toList, "value=".toList ++ fmt x]
      | none => []) ++ (match ac with
      | some x => ["vac=".toList ++ fmt x]
      | none => []) ++ (match fn with
      | some f => shown f
      | none => [])
  | .I id n1 n2 dc ac fn =>
    [id, n1, n2] ++ (match dc with
      | some x => ["type=idc".toList, "value=".toList ++ fmt x]
      | none => []) ++ (match ac with
      | some x => ["iac=".toList ++ fmt x, "arg=".toList ++ fmt 0]
      | none => []) ++ (match fn with
      | some f => shown f
      | none => [])
  | .E id n1 n2 sn1 sn2 v => [id, n1, n2, sn1, sn2, fmt v]
  | .G id n1 n2 sn1 sn2 v => [id, n1, n2, sn1, sn2, fmt v]
  | .F id n1 n2 src v => [id, n1, n2, src, fmt v]
  | .H id n1 n2 src v => [id, n1, n2, src, fmt v]
  | .S id n1 n2 sn1 sn2 model => [id, n1, n2, sn1, sn2, model, "true".toList]
  | .D id n1 n2 model area ic off =>
    [id, n1, n2, model, "area=".toList ++ fmt (area.getD 1)] ++ (match ic with
      | some x => ["ic=".toList ++ fmt x]
      | none => []) ++ (if off then ["off=1".toList] else [])
  | .M id nd ng ns nb model w l m n =>
    [id, nd, ng, ns, nb, model, "type=n".toList, "w=".toList ++ fmt w, "l=".toList ++ fmt l,
      "m=".toList ++ fmt m, "n=".toList ++ fmt n]

end Verif.Parse
