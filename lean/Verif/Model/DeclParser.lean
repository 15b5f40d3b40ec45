import Verif.Model.ExprParser

/-! # The parser of declarations

Model of `parseElementList` and what it calls, without the expressions: `/repo/lib/Parser/BaseModelica/Parser.cpp`. The parser of the
expressions is a parameter `E`; `exprParser` is the one of `Verif/Model/ExprParser.lean`. The input is a list of tokens; positions and the texts
of diagnostics are left out. The depth of the calls is bounded, with a distinct outcome. -/

namespace Marco.DeclParse

/-- The token kinds that the parser of declarations looks at (`/repo/include/marco/Parser/BaseModelica/Token.h:15-119`): `kSection n` are
the keywords that end a list of declarations (`/repo/lib/Parser/BaseModelica/Parser.cpp:1785-1796`), `other t` the tokens that occur in
expressions only (`equal` is `=`, `assign` is `:=`). -/
inductive Tok where
  | ident (s : String)
  | int (n : Nat)
  | str (s : String)
  | kFinal | kEach | kDiscrete | kParameter | kConstant | kInput | kOutput | kAnnotation | kRedeclare | kReplaceable
  | kSection (n : Nat)
  | dot | comma | colon | semicolon | lpar | rpar | lsquare | rsquare | equal | assign
  | other (t : Parse.Tok)
deriving DecidableEq

/-- The outcome: a value and the tokens that are left, `std::nullopt` after a diagnostic, `llvm_unreachable`, or too many calls
(`/repo/lib/Parser/BaseModelica/Parser.cpp:8-20`, `509-518`). -/
inductive Res (α : Type) where
  | ok (a : α) (rest : List Tok)
  | error
  | ub
  | more

/-- The macro `TRY` (`/repo/lib/Parser/BaseModelica/Parser.cpp:15-20`). -/
def Res.bind {α β : Type} (x : Res α) (f : α → List Tok → Res β) : Res β :=
  match x with
  | .ok a r => f a r
  | .error => .error
  | .ub => .ub
  | .more => .more

/-- `/repo/include/marco/Parser/BaseModelica/Parser.h:250-260` (`accept`). -/
def accept (t : Tok) (ts : List Tok) : Bool × List Tok :=
  match ts with
  | [] => (false, [])
  | u :: r => if u = t then (true, r) else (false, u :: r)

/-- The macro `EXPECT` (`/repo/lib/Parser/BaseModelica/Parser.cpp:8-13`). -/
def expect (t : Tok) (ts : List Tok) : Res Unit :=
  match ts with
  | [] => .error
  | u :: r => if u = t then .ok () r else .error

/-- `/repo/lib/Parser/BaseModelica/Parser.cpp:140-143` (`parseIdentifier`). -/
def ident (ts : List Tok) : Res String :=
  match ts with
  | .ident s :: r => .ok s r
  | _ => .error

mutual
/-- `/repo/include/marco/AST/BaseModelica/Modification.h`, made at `/repo/lib/Parser/BaseModelica/Parser.cpp:416-436`: a value, a class
modification, or both. -/
inductive Modif (X : Type) where
  | value (e : X)
  | cls (as : Args X)
  | clsValue (as : Args X) (e : X)
/-- The arguments of a class modification, at least one (`/repo/lib/Parser/BaseModelica/Parser.cpp:452-464`). -/
inductive Args (X : Type) where
  | one (a : Arg X)
  | cons (a : Arg X) (as : Args X)
/-- `ElementModification` (`/repo/lib/Parser/BaseModelica/Parser.cpp:491-506`). -/
inductive Arg (X : Type) where
  | plain (each final : Bool) (name : String)
  | withMod (each final : Bool) (name : String) (m : Modif X)
end

/-- What follows the name in an element modification (`/repo/lib/Parser/BaseModelica/Parser.cpp:497-499`). -/
def startsMod : List Tok → Bool
  | .lpar :: _ => true
  | .equal :: _ => true
  | .assign :: _ => true
  | _ => false

mutual
/-- `/repo/lib/Parser/BaseModelica/Parser.cpp:409-437` (`parseModification`) with `439-449` (`parseClassModification`). -/
def pMod {X : Type} (E : List Tok → Res X) : Nat → List Tok → Res (Modif X)
  | 0, _ => .more
  | f + 1, ts =>
    if (accept .equal ts).1 then (E (accept .equal ts).2).bind fun e r => .ok (.value e) r
    else if (accept .assign ts).1 then (E (accept .assign ts).2).bind fun e r => .ok (.value e) r
    else
      (expect .lpar ts).bind fun _ r1 => (pArgs E f r1).bind fun as r2 => (expect .rpar r2).bind fun _ r3 =>
        if (accept .equal r3).1 then (E (accept .equal r3).2).bind fun e r4 => .ok (.clsValue as e) r4
        else .ok (.cls as) r3
/-- `/repo/lib/Parser/BaseModelica/Parser.cpp:451-464` (`parseArgumentList`). -/
def pArgs {X : Type} (E : List Tok → Res X) : Nat → List Tok → Res (Args X)
  | 0, _ => .more
  | f + 1, ts =>
    (pArg E f ts).bind fun a r =>
      if (accept .comma r).1 then (pArgs E f (accept .comma r).2).bind fun as r' => .ok (.cons a as) r'
      else .ok (.one a) r
/-- `/repo/lib/Parser/BaseModelica/Parser.cpp:466-507` (`parseArgument`, `parseElementModification`); the functions for `redeclare` and
`replaceable` are `llvm_unreachable` (509-518). -/
def pArg {X : Type} (E : List Tok → Res X) : Nat → List Tok → Res (Arg X)
  | 0, _ => .more
  | f + 1, ts =>
    if (accept .kRedeclare ts).1 then .ub
    else
      let each := accept .kEach ts
      let final := accept .kFinal each.2
      if (accept .kReplaceable final.2).1 then .ub
      else
        (ident final.2).bind fun n r =>
          if startsMod r then (pMod E f r).bind fun m r' => .ok (.withMod each.1 final.1 n m) r'
          else .ok (.plain each.1 final.1 n) r
end

/-- `/repo/include/marco/AST/BaseModelica/ArrayDimension.h:57`. -/
inductive Dim (X : Type) where
  | all
  | num (n : Nat)
  | expr (e : X)

/-- `/repo/lib/Parser/BaseModelica/Parser.cpp:1926-1941` (`parseArrayDimension`). -/
def pDim {X : Type} (E : List Tok → Res X) (ts : List Tok) : Res (Dim X) :=
  match ts with
  | .colon :: r => .ok .all r
  | .int n :: r => .ok (.num n) r
  | _ => (E ts).bind fun e r => .ok (.expr e) r

/-- `/repo/lib/Parser/BaseModelica/Parser.cpp:1913-1920`: the dimensions between the brackets. -/
def pDims {X : Type} (E : List Tok → Res X) : Nat → List Tok → Res (List (Dim X))
  | 0, _ => .more
  | f + 1, ts =>
    (pDim E ts).bind fun d r =>
      if (accept .comma r).1 then (pDims E f (accept .comma r).2).bind fun ds r' => .ok (d :: ds) r'
      else (expect .rsquare r).bind fun _ r' => .ok [d] r'

/-- `/repo/include/marco/AST/BaseModelica/Type.h`: built-in types and others. -/
inductive Ty where
  | string | boolean | integer | real
  | user (global : Bool) (path : List String)
deriving DecidableEq

/-- `/repo/lib/Parser/BaseModelica/Parser.cpp:1901-1905`: the rest of the path. -/
def pPath : Nat → List Tok → Res (List String)
  | 0, _ => .more
  | f + 1, ts =>
    if (accept .dot ts).1 then (ident (accept .dot ts).2).bind fun n r => (pPath f r).bind fun ns r' => .ok (n :: ns) r'
    else .ok [] ts

/-- `/repo/lib/Parser/BaseModelica/Parser.cpp:1876-1924` (`parseVariableType`). -/
def pType {X : Type} (E : List Tok → Res X) (f : Nat) (ts : List Tok) : Res (Ty × List (Dim X)) :=
  let global := accept .dot ts
  (ident global.2).bind fun n r =>
    let ty : Res Ty :=
      if n = "String" then .ok .string r
      else if n = "Boolean" then .ok .boolean r
      else if n = "Integer" then .ok .integer r
      else if n = "Real" then .ok .real r
      else (pPath f r).bind fun ns r' => .ok (.user global.1 (n :: ns)) r'
    ty.bind fun t r2 =>
      if (accept .lsquare r2).1 then (pDims E f (accept .lsquare r2).2).bind fun ds r3 => .ok (t, ds) r3
      else .ok (t, []) r2

/-- `/repo/include/marco/AST/BaseModelica/TypePrefix.h`: variability. -/
inductive Variability where
  | none | discrete | parameter | constant
deriving DecidableEq

/-- `/repo/include/marco/AST/BaseModelica/TypePrefix.h`: causality. -/
inductive IO where
  | none | input | output
deriving DecidableEq

/-- `/repo/lib/Parser/BaseModelica/Parser.cpp:1842-1874` (`parseTypePrefix`). -/
def pPrefix (ts : List Tok) : Variability × IO × List Tok :=
  let v : Variability × List Tok :=
    if (accept .kDiscrete ts).1 then (.discrete, (accept .kDiscrete ts).2)
    else if (accept .kParameter ts).1 then (.parameter, (accept .kParameter ts).2)
    else if (accept .kConstant ts).1 then (.constant, (accept .kConstant ts).2)
    else (.none, ts)
  if (accept .kInput v.2).1 then (v.1, .input, (accept .kInput v.2).2)
  else if (accept .kOutput v.2).1 then (v.1, .output, (accept .kOutput v.2).2)
  else (v.1, .none, v.2)

/-- `/repo/include/marco/AST/BaseModelica/Member.h`, made at `/repo/lib/Parser/BaseModelica/Parser.cpp:1828-1839`. -/
structure Member (X : Type) where
  name : String
  ty : Ty
  dims : List (Dim X)
  variability : Variability
  io : IO
  pub : Bool
  mod : Option (Modif X)

/-- `/repo/lib/Parser/BaseModelica/Parser.cpp:1813-1817`: the modification of a declaration, if any. -/
def pOptMod {X : Type} (E : List Tok → Res X) (f : Nat) (ts : List Tok) : Res (Option (Modif X)) :=
  if (accept .lpar ts).1 || (accept .equal ts).1 then (pMod E f ts).bind fun m r => .ok (some m) r else .ok none ts

/-- `/repo/lib/Parser/BaseModelica/Parser.cpp:1819-1826`, `1769-1779`: the comment and the annotation are read and left out. -/
def pTail {X : Type} (E : List Tok → Res X) (f : Nat) (ts : List Tok) : Res Unit :=
  let r := match ts with
    | .str _ :: r => r
    | _ => ts
  if (accept .kAnnotation r).1 then
    (expect .lpar (accept .kAnnotation r).2).bind fun _ r1 => (pArgs E f r1).bind fun _ r2 => (expect .rpar r2).bind fun _ r3 => .ok () r3
  else .ok () r

/-- `/repo/lib/Parser/BaseModelica/Parser.cpp:1806-1840` (`parseElement`). -/
def pElement {X : Type} (E : List Tok → Res X) (f : Nat) (pub : Bool) (ts : List Tok) : Res (Member X) :=
  let p := pPrefix (accept .kFinal ts).2
  (pType E f p.2.2).bind fun t r1 => (ident r1).bind fun n r2 => (pOptMod E f r2).bind fun m r3 => (pTail E f r3).bind fun _ r4 =>
    .ok ⟨n, t.1, t.2, p.1, p.2.1, pub, m⟩ r4

/-- The keywords that end the list (`/repo/lib/Parser/BaseModelica/Parser.cpp:1785-1796`). -/
def atSection : List Tok → Bool
  | .kSection _ :: _ => true
  | _ => false

/-- `/repo/lib/Parser/BaseModelica/Parser.cpp:1781-1804` (`parseElementList`). -/
def pList {X : Type} (E : List Tok → Res X) (pub : Bool) : Nat → List Tok → Res (List (Member X))
  | 0, _ => .more
  | f + 1, ts =>
    if atSection ts then .ok [] ts
    else
      (pElement E (2 * ts.length) pub ts).bind fun m r => (expect .semicolon r).bind fun _ r1 =>
        (pList E pub f r1).bind fun ms r2 => .ok (m :: ms) r2

/-- The whole list, with a bound for the depth (`/repo/lib/Parser/BaseModelica/Parser.cpp:1781-1804`). -/
def parseElementList {X : Type} (E : List Tok → Res X) (pub : Bool) (ts : List Tok) : Res (List (Member X)) :=
  pList E pub (ts.length + 1) ts

/-- A token as the parser of expressions sees it (`/repo/include/marco/Parser/BaseModelica/Token.h:15-119`); the names of the keywords that
do not occur in expressions do not matter. -/
def Tok.toExpr : Tok → Parse.Tok
  | .ident s => .ident s
  | .int n => .int n
  | .str s => .str s
  | .dot => .dot
  | .comma => .comma
  | .colon => .colon
  | .lpar => .lpar
  | .rpar => .rpar
  | .lsquare => .lsquare
  | .rsquare => .rsquare
  | .equal => .assign
  | .assign => .other ":="
  | .semicolon => .other ";"
  | .other t => t
  | _ => .other "keyword"

/-- `/repo/lib/Parser/BaseModelica/Parser.cpp:1042` (`parseExpression`) on these tokens: the tree, and the tokens that are left. -/
def exprParser (ts : List Tok) : Res Parse.Ast :=
  match Parse.parseExpression (ts.map Tok.toExpr) with
  | .ok e r => .ok e (ts.drop (ts.length - r.length))
  | .error => .error
  | .ub => .ub
  | .more => .more

end Marco.DeclParse
