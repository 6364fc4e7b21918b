import Verif.Model.Results

/-!
Model of the iterator methods of the result classes (results.py:222-247, 535-551, 707-712, 1141-1157,
1245-1265) and of the symbol lookup of `symbolic_solution` (results.py:959-1036).

Every result set is its own iterator: `__iter__` resets a counter kept in the object and returns the
object. `for a in r: body` calls `__iter__` once, then `__next__` until `StopIteration`.
-/

namespace Verif.Iter
open Verif.Results Verif.Csv

variable {β : Type}

/-- An object that is its own iterator: `__iter__` and `__next__` (`none`: `StopIteration`). -/
structure Cls (σ β : Type) where
  iter : σ → σ
  next : σ → Option β × σ

/-- `solution.__iter__`/`__next__`, lines 222-247, and `op_solution`, lines 535-551: the counter is the
number of items already returned. `items` are the pairs `(iter_headers[i], iter_data[i])`. -/
def baseCls (items : List β) : Cls Nat β where
  iter := fun _ => 0
  next := fun i => if i = items.length then (none, 0) else (items[i]?, i + 1)

/-- `pz_solution`, lines 1245-1265: the counter is the index of the item returned last, -1 to begin with. -/
def pzCls (items : List β) : Cls Int β where
  iter := fun _ => -1
  next := fun i => if i = (items.length : Int) - 1 then (none, 0) else (items[(i + 1).toNat]?, i + 1)

/-- A `for` loop over the object in state `s` (after `__iter__`) whose body leaves it alone, with at most
`fuel` calls of `__next__`: the items seen, the final state, and whether the loop came to its end. -/
def drain {σ : Type} (c : Cls σ β) : Nat → σ → List β × σ × Bool
  | 0, s => ([], s, false)
  | n + 1, s =>
    match c.next s with
    | (none, s') => ([], s', true)
    | (some b, s') =>
      let r := drain c n s'
      (b :: r.1, r.2)

/-- `for a in r: ...` -/
def loop {σ : Type} (c : Cls σ β) (fuel : Nat) (s : σ) : List β × σ × Bool := drain c fuel (c.iter s)

/-- What the inner loop of `for a in r: for b in r: ...` does to the object. -/
def inner {σ : Type} (c : Cls σ β) (fuel : Nat) (s : σ) : σ := (loop c fuel s).2.1

/-- The outer loop of `for a in r: for b in r: ...`: the items it sees. -/
def nested {σ : Type} (c : Cls σ β) (fuel : Nat) : Nat → σ → List β × Bool
  | 0, _ => ([], false)
  | n + 1, s =>
    match c.next s with
    | (none, _) => ([], true)
    | (some b, s') =>
      let r := nested c fuel n (inner c fuel s')
      (b :: r.1, r.2)

/-! ### symbolic_solution -/

/-- A key of the dictionary passed to the constructor: a sympy symbol, or a string (`calculate_gains` makes
strings, symbolic.py:240). -/
inductive Key where
  | sym (name : Word)
  | str (text : Word)
deriving DecidableEq, Repr

/-- `str(key)` -/
def Key.text : Key → Word
  | .sym n => n
  | .str t => t

/-- The attributes the methods below use. -/
structure Sym (V : Type) where
  results : PyDict V
  symbols : List Key

/-- `symbolic_solution.__init__`, lines 967-980: `atoms v` are the symbols of the expression `v` (of its
`'gain'` for a transfer function). -/
def mkSym {V : Type} (atoms : V → List Word) (d : List (Key × V)) : Sym V where
  results := d.foldl (fun r p => ciUpdate r p.1.text p.2) []
  symbols := (d.map (·.2)).foldl (fun acc v => (atoms v).foldl
    (fun acc n => if Key.sym n ∈ acc then acc else acc ++ [Key.sym n]) acc) (d.map (·.1))

/-- `symbolic_solution.__iter__`/`__next__`, lines 1141-1154: `self.results[self._symbols[i]]` - an item
whose lookup fails (a `KeyError`) has no value. -/
def symCls {V : Type} (s : Sym V) : Cls Int (Word × Option V) where
  iter := fun _ => -1
  next := fun i =>
    if i = (s.results.length : Int) - 1 then (none, 0)
    else
      let j := (i + 1).toNat
      (match s.results[j]?, s.symbols[j]? with
        | some p, some k => some (p.1, ciGet s.results k.text)
        | _, _ => none, i + 1)

/-- `[x for x in self._symbols if x.name.lower() == variable.lower()]`, line 1010: strings have no
attribute `name`. -/
def matching (v : Word) : List Key → Except Circuit.Err (List Key)
  | [] => .ok []
  | .str _ :: _ => .error .attr
  | .sym n :: r =>
    match matching v r with
    | .error e => .error e
    | .ok l => .ok (if lowerW n = lowerW v then .sym n :: l else l)

/-- `symbolic_solution.as_symbol`, lines 1010-1014. -/
def asSymbol {V : Type} (s : Sym V) (v : Word) : Except Circuit.Err Key :=
  match matching v s.symbols with
  | .error e => .error e
  | .ok [] => .error .value
  | .ok (k :: _) => .ok k

/-- `symbolic_solution.as_symbols`, line 1036, for the words of the string. -/
def asSymbols {V : Type} (s : Sym V) : List Word → Except Circuit.Err (List Key)
  | [] => .ok []
  | v :: r =>
    match asSymbol s v with
    | .error e => .error e
    | .ok k =>
      match asSymbols s r with
      | .error e => .error e
      | .ok l => .ok (k :: l)

/-- `op_solution.values`, line 527: `np.squeeze(self.x).tolist()` is a list, or a number if there is one
unknown only. -/
inductive Squeezed (K : Type) where
  | list (l : List K)
  | scalar (x : K)
deriving DecidableEq, Repr

def opValues {K : Type} : List K → Squeezed K
  | [x] => .scalar x
  | l => .list l

end Verif.Iter
