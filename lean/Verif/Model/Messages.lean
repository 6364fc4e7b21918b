import Verif.Model.Circuit

/-!
Messages to the user: ahkab/printing.py:168-266 (`print_general_error`, `print_warning`, `print_info_line`, `print_parse_error`),
313-326 (`print_symbolic_equations`) and 527-533 (`printoptions`), and the handlers of parse errors in netlist_parser.py:246-253,
309-314 and 1409-1414.

Standard output and standard error are the lists of characters written to them; `isOpen` says whether the next `print` works (a closed
stream or a character that has no encoding make it raise; standard error is taken to work always). `P` are the settings of
`numpy.set_printoptions`.
-/

namespace Verif.Messages

inductive Err where
  /-- from `print` -/
  | value
  /-- `NetlistParseError` with its message -/
  | parse (msg : List Char)
  deriving DecidableEq, Repr

structure World (P : Type) where
  out : List Char
  err : List Char
  settings : P
  isOpen : Bool
  deriving DecidableEq, Repr

variable {P : Type}

/-- `print(text, end=stop)` -/
def World.print (w : World P) (text stop : List Char) : World P × Option Err :=
  if w.isOpen then ({ w with out := w.out ++ text ++ stop }, none) else (w, some .value)

/-- `sys.stderr.write(text + "\n")` -/
def World.complain (w : World P) (text : List Char) : World P := { w with err := w.err ++ text ++ ['\n'] }

/-- `print_general_error`, printing.py:181-186 -/
def generalError (w : World P) (msg : List Char) (toOut : Bool) : World P × Option Err :=
  if toOut then w.print (['E', ':', ' '] ++ msg) ['\n'] else (w.complain (['E', ':', ' '] ++ msg), none)

/-- `print_warning`, printing.py:202-207 -/
def warning (w : World P) (msg : List Char) (toOut : Bool) : World P × Option Err :=
  if toOut then w.print (['W', ':', ' '] ++ msg) ['\n'] else (w.complain (['W', ':', ' '] ++ msg), none)

/-- a block under `printoptions`, printing.py:527-533: there is no `finally`, an exception goes past the last line -/
def withSettings (p : P) (w : World P) (block : World P → World P × Option Err) : World P × Option Err :=
  match block { w with settings := p } with
  | (w', none) => ({ w' with settings := w.settings }, none)
  | (w', some e) => (w', some e)

/-- `print_info_line`, printing.py:233-242; `p` are `options.print_precision` and `options.print_suppress` put into the settings -/
def infoLine (p : P) (w : World P) (msg : List Char) (relevance verbose : Int) (nl : Bool) : World P × Option Err :=
  if verbose ≥ relevance then withSettings p w fun w => w.print msg (if nl then ['\n'] else [' ']) else (w, none)

/-- `"Parse error on line " + str(nline) + ":"` -/
def parseHead (n : Nat) : List Char := "Parse error on line ".toList ++ Nat.toDigits 10 n ++ [':']

/-- `print_parse_error`, printing.py:261-266 -/
def parseError (w : World P) (n : Nat) (line : List Char) (toOut : Bool) : World P × Option Err :=
  match generalError w (parseHead n) toOut with
  | (w, some e) => (w, some e)
  | (w, none) => if toOut then w.print line ['\n'] else (w.complain line, none)

/-- the handlers of parse errors: the message unless it is empty, then the line; the exception is raised again -/
def handler (w : World P) (msg : List Char) (n : Nat) (line : List Char) : World P × Option Err :=
  match (if msg.length ≠ 0 then generalError w msg false else (w, none)) with
  | (w, some e) => (w, some e)
  | (w, none) => match parseError w n line false with
    | (w, some e) => (w, some e)
    | (w, none) => (w, some (.parse msg))

/-- `print_symbolic_equations`, printing.py:322-326 -/
def equations (w : World P) (eqs : List (List Char)) : World P × Option Err :=
  match w.print "+--".toList ['\n'] with
  | (w, some e) => (w, some e)
  | (w, none) =>
    let rec loop : World P → List (List Char) → World P × Option Err
      | w, [] => (w, none)
      | w, eq :: r => match w.print (['|', ' '] ++ eq) ['\n'] with
        | (w, some e) => (w, some e)
        | (w, none) => loop w r
    match loop w eqs with
    | (w, some e) => (w, some e)
    | (w, none) => w.print "+--".toList ['\n']

/-- what an analysis says, in order -/
inductive Call where
  | info (msg : List Char) (relevance : Int) (nl : Bool)
  | warn (msg : List Char)
  | error (msg : List Char)
  | parse (n : Nat) (line : List Char)
  deriving DecidableEq, Repr

def Call.run (p : P) (verbose : Int) (w : World P) : Call → World P × Option Err
  | .info msg rel nl => infoLine p w msg rel verbose nl
  | .warn msg => warning w msg false
  | .error msg => generalError w msg false
  | .parse n line => parseError w n line false

/-- all messages of a run with one verbosity; an exception ends it -/
def session (p : P) (verbose : Int) : World P → List Call → World P × Option Err
  | w, [] => (w, none)
  | w, c :: r => match c.run p verbose w with
    | (w, some e) => (w, some e)
    | (w, none) => session p verbose w r

end Verif.Messages
