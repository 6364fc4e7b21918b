import Verif.Model.Parse

/-!
Model of `Circuit.__str__` (circuit.py:160-164) and of reading the printed text as a netlist
(`parse_circuit`, netlist_parser.py:145-284): title, lines of the elements, no directives.

The text is the list of its lines; the title is taken to be one line. The dictionary of the models
made by `parse_models` is the parameter `pm`, a function of the lines of the models.
-/

namespace Verif.CircStr
open Verif.Netlist Verif.Parse Verif.Small

/-- `elem.get_netlist_elem_line(self.nodes_dict)`, words separated by one blank. -/
def elemText (fmt : ℚ → Line) (shown : Line × List (String × Option Val) → List Line)
    (e : PElem) : Line := ((elemLine fmt shown e).intersperse [' ']).flatten

/-- `str(circ)` -/
def circStr (fmt : ℚ → Line) (shown : Line × List (String × Option Val) → List Line)
    (title : Line) (els : List PElem) : List Line :=
  ('*' :: ' ' :: title) :: els.map (elemText fmt shown)

/-- Reading a file: title and elements of the circuit. -/
def readCirc (pm : List (Line × Nat) → Except PErr (List Line)) (ls : List Line) :
    Except PErr (Line × List PElem) :=
  match readFile ls with
  | none => .error .parse
  | some (t, g) => do
    let models ← pm g.models
    let els ← parseAll models (g.elements.map fun l => words l.1) []
    .ok (t, els)

end Verif.CircStr
