import Mathlib.Data.Rat.Defs

/-!
# Model of the expression parser (`/repo/lib/Parser/BaseModelica/Parser.cpp`)

The input is the list of the tokens that are still to be read, the end of the list standing for the
token `EndOfFile`, which the lexer returns again and again. Source positions and the texts of the
diagnostics are left out. The outcome of a function is a tree, an error that has been reported, or
undefined behaviour: a null pointer that is dereferenced.

Each `parse…` method is a symbol `NT`; `step` has one case for each of them, in terms of the functions it
calls, and `parse` bounds the depth of the calls. A `while` loop is a symbol of its own, ending in `Tail`,
called again for the next iteration; a `do … while` loop is one that calls itself after the separator.
-/

namespace Marco.Parse

/-- include/marco/Parser/BaseModelica/Token.h:15-120, the token kinds the expression parser looks at, with
their values; the other ones are `other`. -/
inductive Tok where
  | ident (s : String)
  | int (n : Nat)
  | real (q : ℚ)
  | str (s : String)
  | kAnd | kDer | kElse | kElseIf | kFalse | kFor | kIf | kIn | kNot | kOr | kThen | kTrue
  | plus | plusEW | minus | minusEW | times | timesEW | over | overEW | pow | powEW
  | dot | eq | ne | lt | le | gt | ge
  | comma | colon | lpar | rpar | lsquare | rsquare | lcurly | rcurly | assign
  | other (s : String)
  deriving DecidableEq, Repr

/-- include/marco/AST/BaseModelica/Operation.h:9-34. -/
inductive Op where
  | negate | add | addEW | subtract | subtractEW | multiply | multiplyEW | divide | divideEW | ifelse
  | greater | greaterEqual | equal | different | lessEqual | less | land | lor | lnot
  | subscription | powerOf | powerOfEW | range
  deriving DecidableEq, Repr

/-- The nodes of the syntax tree that the expression parser creates (include/marco/AST/BaseModelica):
`Constant`, `Operation`, `Tuple`, `ArrayConstant`, `ArrayForGenerator`, `Call`, `ComponentReference` (`dummy`
for one with `setDummy(true)`), `ComponentReferenceEntry`, `Subscript` (`subAll` for one without expression),
`ExpressionFunctionArgument`, `NamedFunctionArgument`, `ReductionFunctionArgument`, `ForIndex` (with or
without expression). -/
inductive Ast where
  | int (n : Nat)
  | real (q : ℚ)
  | str (s : String)
  | bool (b : Bool)
  | op (k : Op) (args : List Ast)
  | tuple (es : List Ast)
  | array (es : List Ast)
  | generator (e : Ast) (is : List Ast)
  | call (callee : Ast) (args : List Ast)
  | ref (globalLookup : Bool) (path : List Ast)
  | dummy
  | entry (name : String) (subs : List Ast)
  | sub (e : Ast)
  | subAll
  | argExpr (e : Ast)
  | argNamed (name : String) (e : Ast)
  | argReduction (e : Ast) (is : List Ast)
  | forIndex (name : String)
  | forIndexIn (name : String) (e : Ast)
  deriving Repr

/-- The outcome of a function: a value and the tokens that are left, `std::nullopt` after a diagnostic,
undefined behaviour, or the depth of the calls that has been exceeded. -/
inductive Res (α : Type) where
  | ok (a : α) (rest : List Tok)
  | error
  | ub
  | more

/-- A function that reads tokens. -/
def P (α : Type) := List Tok → Res α

/-- Sequencing, with the macro `TRY` (Parser.cpp:15-20). -/
instance : Monad P where
  pure a := fun ts => .ok a ts
  bind x f := fun ts =>
    match x ts with
    | .ok a r => f a r
    | .error => .error
    | .ub => .ub
    | .more => .more

/-- `lookahead[0].isa<…>()`. -/
def isTok (p : Tok → Bool) : P Bool := fun ts =>
  .ok (match ts with | t :: _ => p t | [] => false) ts

/-- include/marco/Parser/BaseModelica/Parser.h:247-257, `accept`. -/
def accept (t : Tok) : P Bool := fun ts =>
  match ts with
  | u :: r => if u = t then .ok true r else .ok false ts
  | [] => .ok false []

/-- Parser.cpp:8-13, the macro `EXPECT`. -/
def expect (t : Tok) : P Unit := fun ts =>
  match ts with
  | u :: r => if u = t then .ok () r else .error
  | [] => .error

/-- `EXPECT(TokenKind::Identifier)` with `getString()` (Parser.cpp:140-143). -/
def ident : P String := fun ts =>
  match ts with
  | .ident s :: r => .ok s r
  | _ => .error

/-- `lookahead[0].isa<Identifier>() && lookahead[1].isa<EqualityOperator>()`. -/
def atNamed : P Bool := fun ts =>
  .ok (match ts with | .ident _ :: .assign :: _ => true | _ => false) ts

/-- The token is consumed if it has one of the listed kinds. -/
def acceptOp (f : Tok → Option Op) : P (Option Op) := fun ts =>
  match ts with
  | t :: r => match f t with
    | some k => .ok (some k) r
    | none => .ok none ts
  | [] => .ok none []

/-- Parser.cpp:1185-1208, `parseRelationalOperator`, with the condition of 1164-1169. -/
def relOp : Tok → Option Op
  | .ge => some .greaterEqual
  | .gt => some .greater
  | .le => some .lessEqual
  | .lt => some .less
  | .eq => some .equal
  | .ne => some .different
  | _ => none

/-- Parser.cpp:1253-1268, `parseAddOperator`, with the condition of 1232-1235. -/
def addOp : Tok → Option Op
  | .plus => some .add
  | .plusEW => some .addEW
  | .minus => some .subtract
  | .minusEW => some .subtractEW
  | _ => none

/-- Parser.cpp:1299-1314, `parseMulOperator`, with the condition of 1278-1281. -/
def mulOp : Tok → Option Op
  | .times => some .multiply
  | .timesEW => some .multiplyEW
  | .over => some .divide
  | .overEW => some .divideEW
  | _ => none

/-- Parser.cpp:1323-1348, the operators of `parseFactor`. -/
def powOp : Tok → Option Op
  | .pow => some .powerOf
  | .powEW => some .powerOfEW
  | _ => none

/-- The functions, and the loops with what has been read so far. -/
inductive NT where
  | expr | simple
  | logical | orTail | lterm | andTail | lfactor | relation
  | arith | addTail (a : Ast) | term | mulTail (a : Ast) | factor | powTail (a : Ast) | primary
  | postfix (a : Ast)
  | outputs | exprs
  | cref | crefTail | entry | subscripts | subs | sub
  | callArgs | args | nonFirst | named | namedArg
  | forIndices | forIndex

/-- What a function returns. -/
@[reducible] def NT.Val : NT → Type
  | .orTail | .andTail | .outputs | .exprs | .crefTail | .subscripts | .subs | .callArgs | .args
  | .nonFirst | .named | .forIndices => List Ast
  | _ => Ast

/-- Parser.cpp:1042-1066, `parseExpression`. -/
def pExpr (self : (n : NT) → P n.Val) : P Ast := do
  if ← accept .kIf then
    let c ← self .expr
    expect .kThen
    let t ← self .expr
    expect .kElse
    let e ← self .expr
    pure (.op .ifelse [c, t, e])
  else
    self .simple

/-- Parser.cpp:1068-1093, `parseSimpleExpression`. -/
def pSimple (self : (n : NT) → P n.Val) : P Ast := do
  let l1 ← self .logical
  if ← accept .colon then
    let l2 ← self .logical
    if ← accept .colon then
      let l3 ← self .logical
      pure (.op .range [l1, l2, l3])
    else pure (.op .range [l1, l2])
  else pure l1

/-- Parser.cpp:1095-1117, `parseLogicalExpression`. -/
def pLogical (self : (n : NT) → P n.Val) : P Ast := do
  let t ← self .lterm
  let ts ← self .orTail
  match ts with
  | [] => pure t
  | ts => pure (.op .lor (t :: ts))

/-- Parser.cpp:1105-1108, the loop of `parseLogicalExpression`. -/
def pOrTail (self : (n : NT) → P n.Val) : P (List Ast) := do
  if ← accept .kOr then
    let t ← self .lterm
    let ts ← self .orTail
    pure (t :: ts)
  else pure []

/-- Parser.cpp:1119-1141, `parseLogicalTerm`. -/
def pLterm (self : (n : NT) → P n.Val) : P Ast := do
  let t ← self .lfactor
  let ts ← self .andTail
  match ts with
  | [] => pure t
  | ts => pure (.op .land (t :: ts))

/-- Parser.cpp:1129-1132, the loop of `parseLogicalTerm`. -/
def pAndTail (self : (n : NT) → P n.Val) : P (List Ast) := do
  if ← accept .kAnd then
    let t ← self .lfactor
    let ts ← self .andTail
    pure (t :: ts)
  else pure []

/-- Parser.cpp:1143-1159, `parseLogicalFactor`. -/
def pLfactor (self : (n : NT) → P n.Val) : P Ast := do
  if ← accept .kNot then
    let r ← self .relation
    pure (.op .lnot [r])
  else self .relation

/-- Parser.cpp:1161-1183, `parseRelation`. -/
def pRelation (self : (n : NT) → P n.Val) : P Ast := do
  let l ← self .arith
  match ← acceptOp relOp with
  | none => pure l
  | some k =>
    let r ← self .arith
    pure (.op k [l, r])

/-- Parser.cpp:1210-1230, the beginning of `parseArithmeticExpression`. -/
def pArith (self : (n : NT) → P n.Val) : P Ast := do
  if ← accept .minus then
    let t ← self .term
    self (.addTail (.op .negate [t]))
  else
    let _ ← accept .plus
    let t ← self .term
    self (.addTail t)

/-- Parser.cpp:1232-1248, the loop of `parseArithmeticExpression`. -/
def pAddTail (self : (n : NT) → P n.Val) (a : Ast) : P Ast := do
  match ← acceptOp addOp with
  | none => pure a
  | some k =>
    let t ← self .term
    self (.addTail (.op k [a, t]))

/-- Parser.cpp:1270-1276, the beginning of `parseTerm`. -/
def pTerm (self : (n : NT) → P n.Val) : P Ast := do
  let f ← self .factor
  self (.mulTail f)

/-- Parser.cpp:1278-1294, the loop of `parseTerm`. -/
def pMulTail (self : (n : NT) → P n.Val) (a : Ast) : P Ast := do
  match ← acceptOp mulOp with
  | none => pure a
  | some k =>
    let f ← self .factor
    self (.mulTail (.op k [a, f]))

/-- Parser.cpp:1316-1321, the beginning of `parseFactor`. -/
def pFactor (self : (n : NT) → P n.Val) : P Ast := do
  let p ← self .primary
  self (.powTail p)

/-- Parser.cpp:1323-1349, the loop of `parseFactor`. -/
def pPowTail (self : (n : NT) → P n.Val) (a : Ast) : P Ast := do
  match ← acceptOp powOp with
  | none => pure a
  | some k =>
    let p ← self .primary
    self (.powTail (.op k [a, p]))

/-- A null pointer is dereferenced. -/
def crash {α : Type} : P α := fun _ => .ub

/-- Parser.cpp:1354-1480, `parsePrimary`. If no alternative applies `result` is null (the assertion of
line 1460): all the callers (in `parseFactor`) dereference it; if subscripts follow, `setArguments` does. -/
def pPrimary (self : (n : NT) → P n.Val) : P Ast := fun ts =>
  match ts with
  | .int n :: r => .ok (.int n) r
  | .real q :: r => .ok (.real q) r
  | .str s :: r => .ok (.str s) r
  | .kTrue :: r => .ok (.bool true) r
  | .kFalse :: r => .ok (.bool false) r
  | .lpar :: r => (do
      let es ← self .outputs
      expect .rpar
      match es with
      | [e] => self (.postfix e)
      | es => self (.postfix (.tuple es)) : P Ast) r
  | .lcurly :: r => (do
      let e ← self .expr
      if ← accept .comma then
        let es ← self .exprs
        expect .rcurly
        self (.postfix (.array (e :: es)))
      else if ← accept .kFor then
        let is ← self .forIndices
        expect .rcurly
        self (.postfix (.generator e is))
      else
        expect .rcurly
        self (.postfix (.array [e])) : P Ast) r
  | .kDer :: r => (do
      let as ← self .callArgs
      self (.postfix (.call (.ref false [.entry "der" []]) as)) : P Ast) r
  | .ident s :: r => (do
      let c ← self .cref
      if ← isTok (· == .lpar) then
        let as ← self .callArgs
        self (.postfix (.call c as))
      else pure c : P Ast) (.ident s :: r)
  | .lsquare :: r => (do
      let _ ← self .subscripts
      crash : P Ast) (.lsquare :: r)
  | _ => .ub

/-- Parser.cpp:1462-1477, the subscripts after a primary expression. -/
def pPostfix (self : (n : NT) → P n.Val) (a : Ast) : P Ast := do
  if ← isTok (· == .lsquare) then
    let ss ← self .subscripts
    pure (.op .subscription (a :: ss))
  else pure a

/-- Parser.cpp:1708-1735, `parseOutputExpressionList`. -/
def pOutputs (self : (n : NT) → P n.Val) : P (List Ast) := do
  if ← isTok (· == .rpar) then pure []
  else if ← accept .comma then
    let es ← self .outputs
    pure (.dummy :: es)
  else
    let e ← self .expr
    let _ ← accept .comma
    let es ← self .outputs
    pure (e :: es)

/-- Parser.cpp:1652-1665, `parseArrayArgumentsNonFirst`. -/
def pExprs (self : (n : NT) → P n.Val) : P (List Ast) := do
  let e ← self .expr
  if ← accept .comma then
    let es ← self .exprs
    pure (e :: es)
  else pure [e]

/-- Parser.cpp:1482-1504, `parseComponentReference`. -/
def pCref (self : (n : NT) → P n.Val) : P Ast := do
  let g ← accept .dot
  let e ← self .entry
  let es ← self .crefTail
  pure (.ref g (e :: es))

/-- Parser.cpp:1492-1496, the loop of `parseComponentReference`. -/
def pCrefTail (self : (n : NT) → P n.Val) : P (List Ast) := do
  if ← accept .dot then
    let e ← self .entry
    let es ← self .crefTail
    pure (e :: es)
  else pure []

/-- Parser.cpp:1506-1523, `parseComponentReferenceEntry`. -/
def pEntry (self : (n : NT) → P n.Val) : P Ast := do
  let s ← ident
  if ← isTok (· == .lsquare) then
    let ss ← self .subscripts
    pure (.entry s ss)
  else pure (.entry s [])

/-- Parser.cpp:1737-1753, `parseArraySubscripts`. -/
def pSubscripts (self : (n : NT) → P n.Val) : P (List Ast) := do
  expect .lsquare
  let ss ← self .subs
  expect .rsquare
  pure ss

/-- Parser.cpp:1744-1747, the loop of `parseArraySubscripts`. -/
def pSubs (self : (n : NT) → P n.Val) : P (List Ast) := do
  let s ← self .sub
  if ← accept .comma then
    let ss ← self .subs
    pure (s :: ss)
  else pure [s]

/-- Parser.cpp:1755-1767, `parseSubscript`. -/
def pSub (self : (n : NT) → P n.Val) : P Ast := do
  if ← accept .colon then pure .subAll
  else
    let e ← self .expr
    pure (.sub e)

/-- Parser.cpp:1525-1544, `parseFunctionCallArgs`. -/
def pCallArgs (self : (n : NT) → P n.Val) : P (List Ast) := do
  expect .lpar
  if ← isTok (· == .rpar) then
    expect .rpar
    pure []
  else
    let as ← self .args
    expect .rpar
    pure as

/-- Parser.cpp:1546-1594, `parseFunctionArguments`. -/
def pArgs (self : (n : NT) → P n.Val) : P (List Ast) := do
  if ← atNamed then self .named
  else
    let e ← self .expr
    if ← accept .kFor then
      let is ← self .forIndices
      pure [.argReduction e is]
    else if ← accept .comma then
      let as ← self .nonFirst
      pure (.argExpr e :: as)
    else pure [.argExpr e]

/-- Parser.cpp:1596-1621, `parseFunctionArgumentsNonFirst`, with `parseFunctionArgument` (1698-1706). The
recursive call reads everything up to the last comma, so the loop of 1609-1615 is executed once at most. -/
def pNonFirst (self : (n : NT) → P n.Val) : P (List Ast) := do
  if ← atNamed then self .named
  else
    let e ← self .expr
    if ← accept .comma then
      let as ← self .nonFirst
      pure (.argExpr e :: as)
    else pure [.argExpr e]

/-- Parser.cpp:1667-1680, `parseNamedArguments`. -/
def pNamed (self : (n : NT) → P n.Val) : P (List Ast) := do
  let a ← self .namedArg
  if ← accept .comma then
    let as ← self .named
    pure (a :: as)
  else pure [a]

/-- Parser.cpp:1682-1696, `parseNamedArgument`. -/
def pNamedArg (self : (n : NT) → P n.Val) : P Ast := do
  let s ← ident
  expect .assign
  let e ← self .expr
  pure (.argNamed s (.argExpr e))

/-- Parser.cpp:891-904, `parseForIndices`. -/
def pForIndices (self : (n : NT) → P n.Val) : P (List Ast) := do
  let i ← self .forIndex
  if ← accept .comma then
    let is ← self .forIndices
    pure (i :: is)
  else pure [i]

/-- Parser.cpp:906-921, `parseForIndex`. -/
def pForIndex (self : (n : NT) → P n.Val) : P Ast := do
  let s ← ident
  if ← accept .kIn then
    let e ← self .expr
    pure (.forIndexIn s e)
  else pure (.forIndex s)

/-- The functions of Parser.cpp in terms of the ones they call. -/
def step (self : (n : NT) → P n.Val) : (n : NT) → P n.Val
  | .expr => pExpr self
  | .simple => pSimple self
  | .logical => pLogical self
  | .orTail => pOrTail self
  | .lterm => pLterm self
  | .andTail => pAndTail self
  | .lfactor => pLfactor self
  | .relation => pRelation self
  | .arith => pArith self
  | .addTail a => pAddTail self a
  | .term => pTerm self
  | .mulTail a => pMulTail self a
  | .factor => pFactor self
  | .powTail a => pPowTail self a
  | .primary => pPrimary self
  | .postfix a => pPostfix self a
  | .outputs => pOutputs self
  | .exprs => pExprs self
  | .cref => pCref self
  | .crefTail => pCrefTail self
  | .entry => pEntry self
  | .subscripts => pSubscripts self
  | .subs => pSubs self
  | .sub => pSub self
  | .callArgs => pCallArgs self
  | .args => pArgs self
  | .nonFirst => pNonFirst self
  | .named => pNamed self
  | .namedArg => pNamedArg self
  | .forIndices => pForIndices self
  | .forIndex => pForIndex self

/-- The functions, for a bounded depth of the calls. -/
def parse : Nat → (n : NT) → P n.Val
  | 0, _ => fun _ => .more
  | k + 1, n => step (parse k) n

/-- `parseExpression()` on a list of tokens, with a depth that is always enough (`C57_terminates_partial`). -/
def parseExpression (ts : List Tok) : Res Ast := parse (20 * (ts.length + 1)) .expr ts

end Marco.Parse
