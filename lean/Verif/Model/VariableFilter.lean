import Verif.Model.Lexer

/-!
# Model of the variable filter (`/repo/lib/VariableFilter/*.cpp`)

The text is a list of ASCII characters without NUL. Tokens have a kind and a value; source positions
and diagnostics are left out. The whole text is lexed before parsing, whereas the code lexes on
demand: the results differ only for texts that are rejected before an integer literal that
overflows. The two queries on regular expressions (`llvm::Regex::isValid`, `llvm::Regex::match`) are
parameters. The two string maps are functions from names to lists of trackers (empty: no entry).
Signed overflow in the lexer is undefined behaviour (`none`).
-/

namespace Marco.VF
open Marco.Lex (isDigit isNonDigit isSpace digit nul addDigit peek)

/-- Names and regular expressions. -/
abbrev Name := List Char

/-- The tokens (Token.h). -/
inductive Tok where
  | ident (s : Name)
  | integer (n : Nat)
  | regex (s : Name)
  | lpar | rpar | lsquare | rsquare | comma | semicolons | colons | dollar | der
  | error | eof
  deriving DecidableEq, Repr

/-- The states (LexerStateMachine.h:29-36); the members `identifier`, `numberLexer` and `regex` are
arguments. -/
inductive St where
  | normal
  | ident (s : Name)
  | num (n : Nat)
  | regex (s : Name)
  | fin
  deriving DecidableEq, Repr

/-- LexerStateMachine.cpp:67-73, `stringToToken`, and the token built from it (line 109). -/
def wordTok (s : Name) : Tok := if s == ['d', 'e', 'r'] then .der else .ident s

/-- LexerStateMachine.cpp:75-81 and 19-26, `charToToken`. -/
def symTok (c : Char) : Tok :=
  if c == '(' then .lpar else if c == ')' then .rpar
  else if c == '[' then .lsquare else if c == ']' then .rsquare
  else if c == ',' then .comma else if c == ';' then .semicolons
  else if c == ':' then .colons else if c == '$' then .dollar else .error

/-- LexerStateMachine.cpp:101-113. -/
def scanId (s : Name) (cur next : Char) : St × Option Tok :=
  let s := s ++ [cur]
  if !isDigit next && !isNonDigit next && next != '.' then (.normal, some (wordTok s))
  else (.ident s, none)

/-- LexerStateMachine.cpp:115-130. -/
def scanNum (n : Nat) (cur next : Char) : Option (St × Option Tok) := do
  let n ← if isDigit cur then addDigit n (digit cur) else some n
  if !isDigit next then some (.normal, some (.integer n)) else some (.num n, none)

/-- LexerStateMachine.cpp:132-150. -/
def scanRegex (s : Name) (cur : Char) : St × Option Tok :=
  if cur == '/' then (.normal, some (.regex s))
  else if cur == nul then (.fin, some .error)
  else (.regex (s ++ [cur]), none)

/-- LexerStateMachine.cpp:152-187; 88-99. -/
def scanNormal (cur next : Char) : Option (St × Option Tok) :=
  if isSpace cur then some (.normal, none)
  else if isNonDigit cur then some (scanId [] cur next)
  else if isDigit cur then scanNum 0 cur next
  else if cur == '/' then some (.regex [], none)
  else if cur == nul then some (.fin, some .eof)
  else some (.normal, some (symTok cur))

/-- LexerStateMachine.cpp:189-215, after `advance`. -/
def step (st : St) (cur next : Char) : Option (St × Option Tok) :=
  match st with
  | .normal => scanNormal cur next
  | .ident s => some (scanId s cur next)
  | .num n => scanNum n cur next
  | .regex s => some (scanRegex s cur)
  | .fin => some (.fin, some .eof)

/-- The steps on the terminator, until the token EndOfFile is returned (Lexer.h:76-88). -/
def finish : Nat → St → Option (List Tok)
  | 0, _ => none
  | fuel + 1, st => do
    let (st, t) ← step st nul nul
    match t with
    | some .eof => some [.eof]
    | some t => (finish fuel st).map (t :: ·)
    | none => finish fuel st

/-- The steps on a part of the text followed by the character `n`: the state and the tokens. -/
def feed (n : Char) : St → List Char → Option (St × List Tok)
  | st, [] => some (st, [])
  | st, c :: cs => do
    let (st', t) ← step st c (if cs.isEmpty then n else peek cs)
    let (st'', ts) ← feed n st' cs
    some (st'', t.toList ++ ts)

/-- The tokens of a text: Lexer.h:76-88, called until EndOfFile. -/
def lex (text : List Char) : Option (List Tok) := do
  let (st, ts) ← feed nul .normal text
  let ts' ← finish 4 st
  some (ts ++ ts')

/-- vf::Range (Range.h:6-20): both bounds are of type `long`. -/
structure VRange where
  lower : ℤ
  upper : ℤ
  deriving DecidableEq, Repr

/-- Range.h:8. -/
def kUnbounded : ℤ := -1

/-- vf::Tracker (Tracker.h). -/
structure Tracker where
  name : Name
  ranges : List VRange
  deriving DecidableEq, Repr

/-- VariableFilter (VariableFilter.h:49-53). -/
structure Filter where
  /-- `variables` -/
  vars : Name → List Tracker := fun _ => []
  /-- `derivatives` -/
  ders : Name → List Tracker := fun _ => []
  regex : List Name := []
  enabled : Bool := false

/-- `map[key].push_back(value)`. -/
def push (m : Name → List Tracker) (t : Tracker) : Name → List Tracker :=
  fun n => if n = t.name then m n ++ [t] else m n

/-- VariableFilter.cpp:52-55. -/
def Filter.addVariable (f : Filter) (t : Tracker) : Filter :=
  { f with enabled := true, vars := push f.vars t }

/-- VariableFilter.cpp:57-60. -/
def Filter.addDerivative (f : Filter) (t : Tracker) : Filter :=
  { f with enabled := true, ders := push f.ders t }

/-- VariableFilter.cpp:62-65. -/
def Filter.addRegex (f : Filter) (r : Name) : Filter :=
  { f with enabled := true, regex := f.regex ++ [r] }

/-- Conversion of `int64_t` to `int` (the return type of `parseArrayIndex`, Parser.h:30). -/
def toInt (n : Nat) : ℤ := Int.bmod n (2 ^ 32)

/-- Parser.cpp:205-212. `none`: the text is rejected. -/
def parseArrayIndex : List Tok → Option (ℤ × List Tok)
  | .dollar :: ts => some (kUnbounded, ts)
  | .integer n :: ts => some (toInt n, ts)
  | _ => none

/-- Parser.cpp:198-203. -/
def parseArrayRange (ts : List Tok) : Option (VRange × List Tok) := do
  let (lo, ts) ← parseArrayIndex ts
  match ts with
  | .colons :: ts =>
    let (hi, ts) ← parseArrayIndex ts
    some (⟨lo, hi⟩, ts)
  | _ => none

/-- Parser.cpp:189-195, the loop and the closing bracket. -/
def parseRanges : Nat → List Tok → Option (List VRange × List Tok)
  | 0, _ => none
  | fuel + 1, ts =>
    match ts with
    | .comma :: ts => do
      let (r, ts) ← parseArrayRange ts
      let (rs, ts) ← parseRanges fuel ts
      some (r :: rs, ts)
    | .rsquare :: ts => some ([], ts)
    | _ => none

/-- Parser.cpp:182-196, after the opening bracket. -/
def parseArray (ts : List Tok) : Option (List VRange × List Tok) := do
  let (r, ts) ← parseArrayRange ts
  let (rs, ts) ← parseRanges (ts.length + 1) ts
  some (r :: rs, ts)

/-- Parser.cpp:109-180 and 214-221, `parseListElement`. -/
def parseListElement (valid : Name → Bool) (f : Filter) : List Tok → Option (Filter × List Tok)
  | .der :: .lpar :: .ident s :: .rpar :: ts => some (f.addDerivative ⟨s, []⟩, ts)
  | .regex r :: ts =>
    if r.isEmpty then none
    else if valid r then some (f.addRegex r, ts) else none
  | .ident s :: .lsquare :: ts => do
    let (rs, ts) ← parseArray ts
    some (f.addVariable ⟨s, rs⟩, ts)
  | .ident s :: ts => some (f.addVariable ⟨s, []⟩, ts)
  | _ => none

/-- Parser.cpp:94-107. -/
def parse (valid : Name → Bool) : Nat → Filter → List Tok → Option Filter
  | 0, _, _ => none
  | fuel + 1, f, ts =>
    match ts with
    | [] => some f
    | .eof :: _ => some f
    | .semicolons :: ts => parse valid fuel f ts
    | ts => do
      let (f, ts) ← parseListElement valid f ts
      parse valid fuel f ts

/-- VariableFilter.cpp:156-199. Outer `none`: undefined behaviour; inner `none`: text rejected. -/
def fromString (valid : Name → Bool) (text : List Char) : Option (Option Filter) := do
  let ts ← lex text
  some (parse valid (ts.length + 1) {} ts)

/-- vf::Filter (Filter.h). -/
structure Info where
  visible : Bool
  ranges : List VRange
  deriving DecidableEq, Repr

/-- VariableFilter.cpp:149-154. -/
def Filter.matchesRegex (match_ : Name → Name → Bool) (f : Filter) (name : Name) : Bool :=
  f.regex.any fun r => match_ r name

/-- VariableFilter.cpp:83-99: the ranges of a tracker for the rank. -/
def adapt (rank : Nat) (rs : List VRange) : List VRange :=
  rs.take (min rank rs.length) ++
    List.replicate (rank - (rs.take (min rank rs.length)).length) ⟨kUnbounded, kUnbounded⟩

/-- VariableFilter.cpp:67-117. -/
def Filter.getVariableInfo (match_ : Name → Name → Bool) (f : Filter) (name : Name) (rank : Nat) :
    List Info :=
  let visibility := !f.enabled
  let visibility := if f.matchesRegex match_ name then true else visibility
  let filters := (f.vars name).map fun t => Info.mk true (adapt rank t.ranges)
  if filters.isEmpty then [⟨visibility, List.replicate rank ⟨kUnbounded, kUnbounded⟩⟩] else filters

/-- `"der(" + name + ")"`. -/
def derName (name : Name) : Name := ['d', 'e', 'r', '('] ++ name ++ [')']

/-- VariableFilter.cpp:119-147. -/
def Filter.getVariableDerInfo (match_ : Name → Name → Bool) (f : Filter) (name : Name) (rank : Nat) :
    List Info :=
  let visibility := false
  let visibility := if f.matchesRegex match_ (derName name) then true else visibility
  let visibility := if (f.ders name).isEmpty then visibility else true
  [⟨visibility, List.replicate rank ⟨kUnbounded, kUnbounded⟩⟩]

/-- BaseModelicaToRuntime.cpp:620-633: the half-open range of one dimension (0-based). -/
def printableRange (r : VRange) (size : Nat) : ℤ × ℤ :=
  (if r.lower != kUnbounded then r.lower - 1 else 0,
   if r.upper != kUnbounded then r.upper else (size : ℤ))

/-- BaseModelicaToRuntime.cpp:602-641, `getPrintableIndices`: the boxes that are added to the set. -/
def printable (shape : List Nat) (filters : List Info) : List (List (ℤ × ℤ)) :=
  (filters.filter (·.visible)).map fun i => List.zipWith printableRange i.ranges shape

end Marco.VF
