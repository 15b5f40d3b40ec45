import Verif.Model.EqParser

/-! # The parser of algorithm sections

Model of `parseAlgorithmSection` and what it calls: `/repo/lib/Parser/BaseModelica/Parser.cpp`. The parsers of expressions, component
references, output expressions and function arguments are parameters. Positions and the texts of diagnostics are left out. The depth of
the calls is bounded, with a distinct outcome. -/

namespace Marco.StmtParse
open Marco.Parse (Tok Res)
open Marco.EqParse (bind isA isOne expect pIndices tEnd tLoop tWhen tSemicolon tInitial tEquation)

/-- `:=` (`/repo/include/marco/Parser/BaseModelica/Token.h:15-119`). -/
abbrev tAssign : Tok := .other ":="
/-- `while` (`/repo/include/marco/Parser/BaseModelica/Token.h:15-119`). -/
abbrev tWhile : Tok := .other "while"
/-- `break` (`/repo/include/marco/Parser/BaseModelica/Token.h:15-119`). -/
abbrev tBreak : Tok := .other "break"
/-- `return` (`/repo/include/marco/Parser/BaseModelica/Token.h:15-119`). -/
abbrev tReturn : Tok := .other "return"
/-- `algorithm` (`/repo/include/marco/Parser/BaseModelica/Token.h:15-119`). -/
abbrev tAlgorithm : Tok := .other "algorithm"
/-- The end of the file (`/repo/include/marco/Parser/BaseModelica/Token.h:15-119`). -/
abbrev tEof : Tok := .other ""

/-- The functions that are called: `parseExpression`, `parseComponentReference`, `parseOutputExpressionList` and `parseFunctionArguments`
(`/repo/lib/Parser/BaseModelica/Parser.cpp:637`, `645`, `660`, `664`, `682`). -/
structure Parsers (D X O A : Type) where
  expr : List Tok → Res X
  ref : List Tok → Res D
  outs : List Tok → Res O
  args : List Tok → Res A

mutual
/-- Statements (`/repo/lib/Parser/BaseModelica/Parser.cpp:622-689`). The arguments of a call are `none` if there are none. -/
inductive Stmt (D X O A : Type) where
  | assign (d : D) (e : X)
  | assignCall (o : O) (f : D) (as : Option A)
  | call (f : D) (as : Option A)
  | brk
  | ret
  | cond (c : X) (body : Stmts D X O A) (bs : Branches D X O A) (els : Else D X O A)
  | loop (is : List (String × Option X)) (body : Stmts D X O A)
  | while (c : X) (body : Stmts D X O A)
  | when (c : X) (body : Stmts D X O A)
/-- Lists of statements (`/repo/lib/Parser/BaseModelica/Parser.cpp:524`). -/
inductive Stmts (D X O A : Type) where
  | nil
  | cons (s : Stmt D X O A) (ss : Stmts D X O A)
/-- The branches with `elseif` (`/repo/lib/Parser/BaseModelica/Parser.cpp:789-814`). -/
inductive Branches (D X O A : Type) where
  | nil
  | cons (c : X) (body : Stmts D X O A) (bs : Branches D X O A)
/-- The block after `else`, if there is one (`/repo/lib/Parser/BaseModelica/Parser.cpp:819-833`). -/
inductive Else (D X O A : Type) where
  | none
  | some (body : Stmts D X O A)
end

/-- `/repo/lib/Parser/BaseModelica/Parser.cpp:1525-1544` (`parseFunctionCallArgs`). -/
def pCallArgs {D X O A : Type} (P : Parsers D X O A) (ts : List Tok) : Res (Option A) :=
  bind (expect .lpar ts) fun _ r1 =>
    bind (if isA .rpar r1 then .ok none r1 else bind (P.args r1) fun a r => .ok (some a) r) fun a r2 =>
      bind (expect .rpar r2) fun _ r3 => .ok a r3

mutual
/-- `/repo/lib/Parser/BaseModelica/Parser.cpp:601-690` (`parseStatement`) with `761-841` (`parseIfStatement`), `867-889`
(`parseForStatement`), `923-946` (`parseWhileStatement`) and `1017-1040` (`parseWhenStatement`, which expects `loop` after the
condition). -/
def pStmt {D X O A : Type} (P : Parsers D X O A) : Nat → List Tok → Res (Stmt D X O A)
  | 0, _ => .more
  | f + 1, ts =>
    if isA .kIf ts then
      bind (P.expr ts.tail) fun c r1 => bind (expect .kThen r1) fun _ r2 => bind (pStmts P f [.kElseIf, .kElse, tEnd] r2) fun b r3 =>
        bind (pBranches P f r3) fun bs r4 =>
          bind (if isA .kElse r4 then bind (pStmts P f [tEnd] r4.tail) fun b r => .ok (.some b) r else .ok .none r4) fun els r5 =>
            bind (expect tEnd r5) fun _ r6 => bind (expect .kIf r6) fun _ r7 => .ok (.cond c b bs els) r7
    else if isA .kFor ts then
      bind (pIndices P.expr f ts.tail) fun is r1 => bind (expect tLoop r1) fun _ r2 => bind (pStmts P f [tEnd] r2) fun b r3 =>
        bind (expect tEnd r3) fun _ r4 => bind (expect .kFor r4) fun _ r5 => .ok (.loop is b) r5
    else if isA tWhile ts then
      bind (P.expr ts.tail) fun c r1 => bind (expect tLoop r1) fun _ r2 => bind (pStmts P f [tEnd] r2) fun b r3 =>
        bind (expect tEnd r3) fun _ r4 => bind (expect tWhile r4) fun _ r5 => .ok (.while c b) r5
    else if isA tWhen ts then
      bind (P.expr ts.tail) fun c r1 => bind (expect tLoop r1) fun _ r2 => bind (pStmts P f [tEnd] r2) fun b r3 =>
        bind (expect tEnd r3) fun _ r4 => bind (expect tWhen r4) fun _ r5 => .ok (.when c b) r5
    else if isA tBreak ts then .ok .brk ts.tail
    else if isA tReturn ts then .ok .ret ts.tail
    else if isA .lpar ts then
      bind (P.outs ts.tail) fun o r1 => bind (expect .rpar r1) fun _ r2 => bind (expect tAssign r2) fun _ r3 =>
        bind (P.ref r3) fun g r4 => bind (pCallArgs P r4) fun as r5 => .ok (.assignCall o g as) r5
    else
      bind (P.ref ts) fun d r1 =>
        if isA .lpar r1 then bind (P.args r1.tail) fun as r2 => bind (expect .rpar r2) fun _ r3 => .ok (.call d (some as)) r3
        else bind (expect tAssign r1) fun _ r2 => bind (P.expr r2) fun e r3 => .ok (.assign d e) r3
/-- The loops over statements with semicolons (`/repo/lib/Parser/BaseModelica/Parser.cpp:526-538`, `771-778`). -/
def pStmts {D X O A : Type} (P : Parsers D X O A) : Nat → List Tok → List Tok → Res (Stmts D X O A)
  | 0, _, _ => .more
  | f + 1, stops, ts =>
    if isOne stops ts then .ok .nil ts
    else
      bind (pStmt P f ts) fun s r1 => bind (expect tSemicolon r1) fun _ r2 => bind (pStmts P f stops r2) fun ss r3 => .ok (.cons s ss) r3
/-- The loop over the branches (`/repo/lib/Parser/BaseModelica/Parser.cpp:792-814`). -/
def pBranches {D X O A : Type} (P : Parsers D X O A) : Nat → List Tok → Res (Branches D X O A)
  | 0, _ => .more
  | f + 1, ts =>
    if isOne [.kElse, tEnd] ts then .ok .nil ts
    else
      bind (expect .kElseIf ts) fun _ r0 => bind (P.expr r0) fun c r1 => bind (expect .kThen r1) fun _ r2 =>
        bind (pStmts P f [.kElseIf, .kElse, tEnd] r2) fun b r3 => bind (pBranches P f r3) fun bs r4 => .ok (.cons c b bs) r4
end

/-- What ends a section (`/repo/lib/Parser/BaseModelica/Parser.cpp:526-533`). -/
def sectionEnds : List Tok :=
  [tEnd, .other "public", .other "protected", tEquation, tAlgorithm, .other "external", .other "annotation", tEof]

/-- `/repo/lib/Parser/BaseModelica/Parser.cpp:520-543` (`parseAlgorithmSection`), with a bound for the depth. -/
def parseAlgorithmSection {D X O A : Type} (P : Parsers D X O A) (ts : List Tok) : Res (Stmts D X O A) :=
  bind (expect tAlgorithm ts) fun _ r => pStmts P (2 * ts.length + 1) sectionEnds r

end Marco.StmtParse
