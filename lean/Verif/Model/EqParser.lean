import Verif.Model.ExprParser

/-! # The parser of equation sections

Model of `parseEquationSection` and what it calls, without the expressions: `/repo/lib/Parser/BaseModelica/Parser.cpp`. The parser of the
expressions is a parameter `E`. Positions and the texts of diagnostics are left out. The depth of the calls is bounded, with a distinct
outcome. -/

namespace Marco.EqParse
open Marco.Parse (Tok Res)

/-- Keywords that do not occur in expressions (`/repo/include/marco/Parser/BaseModelica/Token.h:15-119`). -/
abbrev tEnd : Tok := .other "end"
/-- `loop` (`/repo/include/marco/Parser/BaseModelica/Token.h:15-119`). -/
abbrev tLoop : Tok := .other "loop"
/-- `when` (`/repo/include/marco/Parser/BaseModelica/Token.h:15-119`). -/
abbrev tWhen : Tok := .other "when"
/-- `elsewhen` (`/repo/include/marco/Parser/BaseModelica/Token.h:15-119`). -/
abbrev tElseWhen : Tok := .other "elsewhen"
/-- `;` (`/repo/include/marco/Parser/BaseModelica/Token.h:15-119`). -/
abbrev tSemicolon : Tok := .other ";"
/-- `initial` (`/repo/include/marco/Parser/BaseModelica/Token.h:15-119`). -/
abbrev tInitial : Tok := .other "initial"
/-- `equation` (`/repo/include/marco/Parser/BaseModelica/Token.h:15-119`). -/
abbrev tEquation : Tok := .other "equation"

/-- The macro `TRY` (`/repo/lib/Parser/BaseModelica/Parser.cpp:15-20`). -/
def bind {α β : Type} (x : Res α) (f : α → List Tok → Res β) : Res β :=
  match x with
  | .ok a r => f a r
  | .error => .error
  | .ub => .ub
  | .more => .more

/-- `lookahead[0].isa<…>` (`/repo/lib/Parser/BaseModelica/Parser.cpp:524-531`). -/
def isA (t : Tok) (ts : List Tok) : Bool := ts.head? == some t

/-- One of several token kinds comes next (`/repo/lib/Parser/BaseModelica/Parser.cpp:551-558`). -/
def isOne (l : List Tok) (ts : List Tok) : Bool := l.any fun t => isA t ts

/-- The macro `EXPECT` (`/repo/lib/Parser/BaseModelica/Parser.cpp:8-13`). -/
def expect (t : Tok) (ts : List Tok) : Res Unit := if isA t ts then .ok () ts.tail else .error

/-- An index of a loop: the name and the range (`/repo/lib/Parser/BaseModelica/Parser.cpp:906-921`). -/
def pIndex {Y : Type} (E : List Tok → Res Y) (ts : List Tok) : Res (String × Option Y) :=
  match ts with
  | .ident s :: r =>
    if isA .kIn r then bind (E r.tail) fun e r' => .ok (s, some e) r' else .ok (s, none) r
  | _ => .error

/-- `/repo/lib/Parser/BaseModelica/Parser.cpp:891-904` (`parseForIndices`). -/
def pIndices {Y : Type} (E : List Tok → Res Y) : Nat → List Tok → Res (List (String × Option Y))
  | 0, _ => .more
  | f + 1, ts =>
    bind (pIndex E ts) fun i r =>
      if isA .comma r then bind (pIndices E f r.tail) fun is r' => .ok (i :: is) r' else .ok [i] r

mutual
/-- Equations (`/repo/include/marco/AST/BaseModelica/Equation.h`): an equality, a loop, and conditional equations with `if` or `when`
(`/repo/lib/Parser/BaseModelica/Parser.cpp:594-597`, `755-769`, `860-863`, `1009-1023`). The types of what is on the left, on the right, and of
the conditions and ranges are parameters. -/
inductive Eqn (L Z X : Type) where
  | equal (l : L) (r : Z)
  | loop (is : List (String × Option X)) (body : Eqns L Z X)
  | cond (when : Bool) (c : X) (body : Eqns L Z X) (branches : Branches L Z X) (els : Eqns L Z X)
/-- Lists of equations (`/repo/lib/Parser/BaseModelica/Parser.cpp:549`). -/
inductive Eqns (L Z X : Type) where
  | nil
  | cons (e : Eqn L Z X) (es : Eqns L Z X)
/-- The branches with `elseif` or `elsewhen` (`/repo/lib/Parser/BaseModelica/Parser.cpp:711-733`). -/
inductive Branches (L Z X : Type) where
  | nil
  | cons (c : X) (body : Eqns L Z X) (bs : Branches L Z X)
end

mutual
/-- `/repo/lib/Parser/BaseModelica/Parser.cpp:571-599` (`parseEquation`) with `843-865` (`parseForEquation`). The keyword that is expected
after `end` is `if` both in `parseIfEquation` (`742`) and in `parseWhenEquation` (`998`). -/
def pEq {Y : Type} (E : List Tok → Res Y) : Nat → List Tok → Res (Eqn Y Y Y)
  | 0, _ => .more
  | f + 1, ts =>
    if isA .kIf ts then pCond E f false .kElseIf .kIf ts.tail
    else if isA .kFor ts then
      bind (pIndices E f ts.tail) fun is r1 => bind (expect tLoop r1) fun _ r2 => bind (pEqs E f [tEnd] r2) fun es r3 =>
        bind (expect tEnd r3) fun _ r4 => bind (expect .kFor r4) fun _ r5 => .ok (.loop is es) r5
    else if isA tWhen ts then pCond E f true tElseWhen .kIf ts.tail
    else
      bind (E ts) fun l r1 => bind (expect .assign r1) fun _ r2 => bind (E r2) fun e r3 =>
        .ok (.equal l e) (match r3 with
          | .str _ :: r4 => r4
          | _ => r3)
/-- `/repo/lib/Parser/BaseModelica/Parser.cpp:692-759` (`parseIfEquation`) and `948-1015` (`parseWhenEquation`), after the first keyword. -/
def pCond {Y : Type} (E : List Tok → Res Y) : Nat → Bool → Tok → Tok → List Tok → Res (Eqn Y Y Y)
  | 0, _, _, _, _ => .more
  | f + 1, w, kElseC, kEnd, ts =>
    bind (E ts) fun c r1 => bind (expect .kThen r1) fun _ r2 => bind (pEqs E f [kElseC, .kElse, tEnd] r2) fun es r3 =>
      bind (pBranches E f kElseC r3) fun bs r4 =>
        bind (if isA .kElse r4 then pEqs E f [tEnd] r4.tail else .ok .nil r4) fun els r5 =>
          bind (expect tEnd r5) fun _ r6 => bind (expect kEnd r6) fun _ r7 => .ok (.cond w c es bs els) r7
/-- The loops over equations with semicolons (`/repo/lib/Parser/BaseModelica/Parser.cpp:700-706`, `851-855`). -/
def pEqs {Y : Type} (E : List Tok → Res Y) : Nat → List Tok → List Tok → Res (Eqns Y Y Y)
  | 0, _, _ => .more
  | f + 1, stops, ts =>
    if isOne stops ts then .ok .nil ts
    else
      bind (pEq E f ts) fun e r1 => bind (expect tSemicolon r1) fun _ r2 => bind (pEqs E f stops r2) fun es r3 => .ok (.cons e es) r3
/-- The loop over the branches (`/repo/lib/Parser/BaseModelica/Parser.cpp:713-733`). -/
def pBranches {Y : Type} (E : List Tok → Res Y) : Nat → Tok → List Tok → Res (Branches Y Y Y)
  | 0, _, _ => .more
  | f + 1, kElseC, ts =>
    if isA kElseC ts then
      bind (E ts.tail) fun c r1 => bind (expect .kThen r1) fun _ r2 => bind (pEqs E f [kElseC, .kElse, tEnd] r2) fun es r3 =>
        bind (pBranches E f kElseC r3) fun bs r4 => .ok (.cons c es bs) r4
    else .ok .nil ts
end

/-- What ends a section (`/repo/lib/Parser/BaseModelica/Parser.cpp:551-558`). -/
def sectionEnds : List Tok :=
  [.other "public", .other "protected", tInitial, tEquation, .other "algorithm", .other "external", .other "annotation", tEnd]

/-- `/repo/lib/Parser/BaseModelica/Parser.cpp:545-569` (`parseEquationSection`), with a bound for the depth. -/
def parseEquationSection {Y : Type} (E : List Tok → Res Y) (ts : List Tok) : Res (Bool × Eqns Y Y Y) :=
  bind (expect tEquation (if isA tInitial ts then ts.tail else ts)) fun _ r =>
    bind (pEqs E (2 * ts.length + 1) sectionEnds r) fun es r' => .ok (isA tInitial ts, es) r'

end Marco.EqParse
