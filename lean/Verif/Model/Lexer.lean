import Mathlib.Data.Rat.Defs
import Mathlib.Algebra.Order.Ring.Rat
import Mathlib.Algebra.Field.Rat

/-!
# Model of the Modelica lexer (`/repo/lib/Parser/BaseModelica/StateMachine.cpp`,
`/repo/include/marco/Lexer/*.h`)

The text is a list of characters without NUL, which ends the input. Tokens have a kind and a value;
source positions and error messages are left out. The members `identifier`, `stringValue` and
`numberLexer`, which are reset when a token begins, are arguments of the states using them. Values
of type `double` are rational numbers; signed overflow is undefined behaviour (`none`).
-/

namespace Marco.Lex

/-- The tokens (Token.h). -/
inductive Tok where
  | ident (s : List Char)
  | keyword (s : List Char)
  | integer (n : Nat)
  | float (q : ℚ)
  | str (s : List Char)
  | sym (s : String)
  | error
  | eof
  deriving DecidableEq, Repr

/-- FloatLexer (FloatLexer.h:8-86). -/
structure Num where
  /-- `upperPart` -/
  upper : Nat := 0
  /-- `lowerPart` -/
  lower : Nat := 0
  /-- `hasExponential` -/
  hasExp : Bool := false
  /-- `exponential` -/
  exp : Nat := 0
  /-- `expSign` -/
  sign : Bool := true
  /-- `leadingZero` -/
  lead : Bool := true
  /-- `fractionalLeadingZeros` -/
  zeros : Nat := 0
  deriving DecidableEq, Repr

/-- IntegerLexer.h:19-23; `int64_t`. -/
def addDigit (v i : Nat) : Option Nat :=
  if v * 10 + i < 2 ^ 63 then some (v * 10 + i) else none

namespace Num

/-- FloatLexer.h:14. -/
def addUpper (n : Num) (i : Nat) : Option Num := do
  let v ← addDigit n.upper i
  some { n with upper := v }

/-- FloatLexer.h:17-27. -/
def addLower (n : Num) (i : Nat) : Option Num := do
  let v ← addDigit n.lower i
  let lead := n.lead && i == 0
  some { n with lower := v, lead := lead, zeros := if lead then n.zeros + 1 else n.zeros }

/-- FloatLexer.h:30-33. -/
def addExp (n : Num) (i : Nat) : Option Num := do
  let v ← addDigit n.exp i
  some { n with hasExp := true, exp := v }

/-- FloatLexer.h:36-39. -/
def setSign (n : Num) (s : Bool) : Num := { n with hasExp := true, sign := s }

/-- FloatLexer.h:46-50, the loop computing `mantissaNormalizer` (an `int64_t`). -/
def normalizer (lower : Nat) : Nat → Nat → Option Nat
  | 0, _ => none
  | fuel + 1, m => if m ≤ lower then
      (if m * 10 < 2 ^ 63 then normalizer lower fuel (m * 10) else none)
    else some m

/-- FloatLexer.h:45-67, `get`. -/
def get (n : Num) : Option ℚ := do
  let m ← normalizer n.lower 20 1
  let v : ℚ := n.upper + (n.lower : ℚ) / (m * 10 ^ n.zeros)
  some (if n.hasExp then (if n.sign then v * 10 ^ n.exp else v * (1 / 10 ^ n.exp)) else v)

end Num

/-- The states (StateMachine.h). -/
inductive St where
  | normal
  | fin
  | ident (s : List Char)
  | qident (s : List Char)
  | qidentBS (s : List Char)
  | number (n : Num)
  | float (n : Num)
  | expSign (n : Num)
  | exp (n : Num)
  | str (s : List Char)
  | strBS (s : List Char)
  | lineComment
  | blockComment
  | ignored
  | ew
  | eq
  | lt
  | gt
  | colon
  deriving DecidableEq, Repr

/-- The terminator. -/
def nul : Char := '\x00'

/-- StateMachine.cpp:7. -/
def isDigit (c : Char) : Bool := '0'.val ≤ c.val && c.val ≤ '9'.val

/-- `c - '0'`. -/
def digit (c : Char) : Nat := c.toNat - 48

/-- StateMachine.cpp:9-11. -/
def isNonDigit (c : Char) : Bool :=
  ('a'.val ≤ c.val && c.val ≤ 'z'.val) || ('A'.val ≤ c.val && c.val ≤ 'Z'.val) || c == '_'

/-- `std::isspace` in the "C" locale. -/
def isSpace (c : Char) : Bool :=
  c == ' ' || c == '\t' || c == '\n' || c == '\x0b' || c == '\x0c' || c == '\r'

/-- StateMachine.cpp:17-47. -/
def escaped (c : Char) : Char :=
  if c == 'a' then '\x07' else if c == 'b' then '\x08' else if c == 'f' then '\x0c'
  else if c == 'n' then '\n' else if c == 'r' then '\r' else if c == 't' then '\t'
  else if c == 'v' then '\x0b' else c

/-- StateMachine.cpp:57-115. -/
def keywords : List String :=
  ["algorithm", "and", "annotation", "block", "break", "class", "connect", "connector", "constant",
   "constrainedby", "der", "discrete", "each", "else", "elseif", "elsewhen", "encapsulated", "end",
   "enumeration", "equation", "expandable", "extends", "external", "false", "final", "flow", "for",
   "function", "if", "import", "impure", "in", "initial", "inner", "input", "loop", "model", "not",
   "operator", "or", "outer", "output", "package", "parameter", "partial", "protected", "public",
   "pure", "record", "redeclare", "replaceable", "return", "stream", "then", "true", "type", "when",
   "while", "within"]

/-- The token of an identifier or keyword (StateMachine.cpp:145-150). -/
def wordTok (s : List Char) : Tok :=
  if keywords.any (fun k => k.toList == s) then .keyword s else .ident s

/-- StateMachine.cpp:136-154. -/
def scanIdent (s : List Char) (cur next : Char) : St × Option Tok :=
  let s := s ++ [cur]
  if !isDigit next && !isNonDigit next then (.normal, some (wordTok s)) else (.ident s, none)

/-- StateMachine.cpp:156-179. -/
def scanQIdent (s : List Char) (cur next : Char) : St × Option Tok :=
  if cur == '\\' then (.qidentBS s, none)
  else if cur == '\'' then (.normal, some (.ident s))
  else if next == nul then (.normal, some .error)
  else (.qident (s ++ [cur]), none)

/-- StateMachine.cpp:181-221. -/
def scanNumber (n : Num) (cur next : Char) : Option (St × Option Tok) := do
  let n ← if isDigit cur then n.addUpper (digit cur) else some n
  if cur == '.' then some (.float n, none)
  else if cur == 'E' || cur == 'e' then
    if next == '+' || next == '-' then some (.expSign n, none)
    else if isDigit next then some (.exp (n.setSign true), none)
    else some (.normal, some .error)
  else if !(isDigit next || next == '.' || next == 'e' || next == 'E') then
    some (.normal, some (.integer n.upper))
  else some (.number n, none)

/-- StateMachine.cpp:223-254. -/
def scanFloat (n : Num) (cur next : Char) : Option (St × Option Tok) := do
  if isSpace cur || cur == nul then
    let v ← n.get
    some (.normal, some (.float v))
  else
    let n ← if isDigit cur then n.addLower (digit cur) else some n
    if (cur == 'E' || cur == 'e') && (next == '+' || next == '-') then some (.expSign n, none)
    else if (cur == 'E' || cur == 'e') && isDigit next then some (.exp (n.setSign true), none)
    else if isDigit next || next == 'E' || next == 'e' then some (.float n, none)
    else
      let v ← n.get
      some (.normal, some (.float v))

/-- StateMachine.cpp:256-283. -/
def scanExpSign (n : Num) (cur next : Char) : St × Option Tok :=
  if isSpace cur || cur == nul then (.normal, some .error)
  else if cur == '-' || cur == '+' then
    if !isDigit next then (.normal, some .error)
    else (.exp (n.setSign (cur == '+')), none)
  else (.normal, some .error)

/-- StateMachine.cpp:285-306. -/
def scanExp (n : Num) (cur next : Char) : Option (St × Option Tok) := do
  if isSpace cur || cur == nul then
    let v ← n.get
    some (.normal, some (.float v))
  else
    let n ← if isDigit cur then n.addExp (digit cur) else some n
    if isDigit next then some (.exp n, none)
    else
      let v ← n.get
      some (.normal, some (.float v))

/-- StateMachine.cpp:308-330. -/
def scanStr (s : List Char) (cur : Char) : St × Option Tok :=
  if cur == nul then (.fin, some .error)
  else if cur == '"' then (.normal, some (.str s))
  else if cur == '\\' then (.strBS s, none)
  else (.str (s ++ [cur]), none)

/-- StateMachine.cpp:332-346. -/
def scanLineComment (cur next : Char) : St × Option Tok :=
  if next == nul || cur == '\n' then (.normal, none) else (.lineComment, none)

/-- StateMachine.cpp:348-362. -/
def scanBlockComment (cur next : Char) : St × Option Tok :=
  if cur == '*' && next == '/' then (.ignored, none)
  else if next == nul then (.normal, none) else (.blockComment, none)

/-- StateMachine.cpp:533-630. -/
def symScan (cur next : Char) : St × Option Tok :=
  if cur == '.' && (next == '+' || next == '-' || next == '*' || next == '/' || next == '^') then
    (.ew, none)
  else if cur == '=' && next == '=' then (.eq, none)
  else if cur == '<' && (next == '>' || next == '=') then (.lt, none)
  else if cur == '>' && next == '=' then (.gt, none)
  else if cur == ':' && next == '=' then (.colon, none)
  else if "+-*/^.<>,;:()[]{}=".toList.contains cur then (.normal, some (.sym (String.ofList [cur])))
  else (.normal, some .error)

/-- StateMachine.cpp:480-531. -/
def scanNormal (cur next : Char) : Option (St × Option Tok) :=
  if isSpace cur then some (.normal, none)
  else if isNonDigit cur || (cur == '$' && isNonDigit next) then some (scanIdent [] cur next)
  else if cur == '\'' then some (.qident [], none)
  else if isDigit cur then scanNumber {} cur next
  else if cur == '"' then some (.str [], none)
  else if cur == '/' && next == '/' then some (.lineComment, none)
  else if cur == '/' && next == '*' then some (.blockComment, none)
  else if cur == nul then some (.fin, some .eof)
  else some (symScan cur next)

/-- A two-character symbol (StateMachine.cpp:382-470). -/
def sym2 (table : List (Char × String)) (cur : Char) : St × Option Tok :=
  match table.find? (fun p => p.1 == cur) with
  | some p => (.normal, some (.sym p.2))
  | none => (.normal, some .error)

/-- StateMachine.cpp:632-696, `step` after `advance`. -/
def step (st : St) (cur next : Char) : Option (St × Option Tok) :=
  match st with
  | .normal => scanNormal cur next
  | .fin => some (.fin, some .eof)
  | .ident s => some (scanIdent s cur next)
  | .qident s => some (scanQIdent s cur next)
  | .qidentBS s => some (.qident (s ++ [escaped cur]), none)
  | .number n => scanNumber n cur next
  | .float n => scanFloat n cur next
  | .expSign n => some (scanExpSign n cur next)
  | .exp n => scanExp n cur next
  | .str s => some (scanStr s cur)
  | .strBS s => some (.str (s ++ [escaped cur]), none)
  | .lineComment => some (scanLineComment cur next)
  | .blockComment => some (scanBlockComment cur next)
  | .ignored => some (.normal, none)
  | .ew => some (sym2 [('+', ".+"), ('-', ".-"), ('*', ".*"), ('/', "./"), ('^', ".^")] cur)
  | .eq => some (sym2 [('=', "==")] cur)
  | .lt => some (sym2 [('>', "<>"), ('=', "<=")] cur)
  | .gt => some (sym2 [('=', ">=")] cur)
  | .colon => some (sym2 [('=', ":=")] cur)

/-- The steps on the terminator, until the token EndOfFile is returned (Lexer.h:76-88). -/
def finish : Nat → St → Option (List Tok)
  | 0, _ => none
  | fuel + 1, st => do
    let (st, t) ← step st nul nul
    match t with
    | some .eof => some [.eof]
    | some t => (finish fuel st).map (t :: ·)
    | none => finish fuel st

/-- The character after the current one. -/
def peek : List Char → Char
  | [] => nul
  | c :: _ => c

/-- The steps on a part of the text followed by the character `n`: the state and the tokens. -/
def feed (n : Char) : St → List Char → Option (St × List Tok)
  | st, [] => some (st, [])
  | st, c :: cs => do
    let (st', t) ← step st c (if cs.isEmpty then n else peek cs)
    let (st'', ts) ← feed n st' cs
    some (st'', t.toList ++ ts)

/-- The tokens from a state: Lexer.h:76-88, called until EndOfFile. -/
def run (st : St) (text : List Char) : Option (List Tok) := do
  let (st, ts) ← feed nul st text
  let ts' ← finish 4 st
  some (ts ++ ts')

/-- The tokens of a text. -/
def lex (text : String) : Option (List Tok) := run .normal text.toList

end Marco.Lex
