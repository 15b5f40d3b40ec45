import Verif.Model.StmtParser
import Verif.Spec.EqParser

/-! # The written form of algorithm sections (Modelica 3.x, appendix A.2.6) -/

namespace Marco.Spec.StmtParse
open Marco.StmtParse
open Marco.Parse (Tok Res)
open Marco.EqParse (tEnd tLoop tWhen tSemicolon tInitial tEquation)
open Marco.Spec.EqParse (stop showIndices)

/-- The tokens that begin another statement or end a list of statements: no component reference begins with them. -/
def keywords : List Tok := [.kIf, .kFor, .kElse, .kElseIf, tWhile, tWhen, tBreak, tReturn, .lpar] ++
  [tEnd, .other "public", .other "protected", tEquation, tAlgorithm, .other "external", .other "annotation", tEof]

/-- The written forms of the parts. -/
structure Forms (D X O A : Type) where
  expr : X → List Tok
  ref : D → List Tok
  outs : O → List Tok
  args : A → List Tok

/-- The functions read the written forms back. -/
structure Reads {D X O A : Type} (P : Parsers D X O A) (F : Forms D X O A) : Prop where
  expr : ∀ e t r, stop t = true → P.expr (F.expr e ++ t :: r) = .ok e (t :: r)
  ref : ∀ d t r, t = .lpar ∨ t = tAssign → P.ref (F.ref d ++ t :: r) = .ok d (t :: r)
  outs : ∀ o r, P.outs (F.outs o ++ .rpar :: r) = .ok o (.rpar :: r)
  args : ∀ a r, P.args (F.args a ++ .rpar :: r) = .ok a (.rpar :: r)
  head : ∀ d, ∃ t r, F.ref d = t :: r ∧ t ∉ keywords
  argsHead : ∀ a, ∃ t r, F.args a = t :: r ∧ t ≠ .rpar

/-- The arguments of a call, with the parentheses. -/
def showArgs {D X O A : Type} (F : Forms D X O A) : Option A → List Tok
  | none => [.lpar, .rpar]
  | some a => .lpar :: (F.args a ++ [.rpar])

mutual
/-- A statement. -/
def showStmt {D X O A : Type} (F : Forms D X O A) : Stmt D X O A → List Tok
  | .assign d e => F.ref d ++ tAssign :: F.expr e
  | .assignCall o g as => .lpar :: (F.outs o ++ .rpar :: tAssign :: (F.ref g ++ showArgs F as))
  | .call g as => F.ref g ++ showArgs F as
  | .brk => [tBreak]
  | .ret => [tReturn]
  | .cond c b bs els => .kIf :: (F.expr c ++ .kThen :: (showStmts F b ++ (showBranches F bs ++ (showElse F els ++ [tEnd, .kIf]))))
  | .loop is b => .kFor :: (showIndices F.expr is ++ tLoop :: (showStmts F b ++ [tEnd, .kFor]))
  | .while c b => tWhile :: (F.expr c ++ tLoop :: (showStmts F b ++ [tEnd, tWhile]))
  | .when c b => tWhen :: (F.expr c ++ .kThen :: (showStmts F b ++ [tEnd, tWhen]))
/-- A list of statements. -/
def showStmts {D X O A : Type} (F : Forms D X O A) : Stmts D X O A → List Tok
  | .nil => []
  | .cons s ss => showStmt F s ++ tSemicolon :: showStmts F ss
/-- The branches. -/
def showBranches {D X O A : Type} (F : Forms D X O A) : Branches D X O A → List Tok
  | .nil => []
  | .cons c b bs => .kElseIf :: (F.expr c ++ .kThen :: (showStmts F b ++ showBranches F bs))
/-- What is after `else`. -/
def showElse {D X O A : Type} (F : Forms D X O A) : Else D X O A → List Tok
  | .none => []
  | .some b => .kElse :: showStmts F b
end

mutual
/-- Each loop has an index; if `common`, there is no `when` and no call without arguments as a statement. -/
def Stmt.Ok {D X O A : Type} (common : Prop) : Stmt D X O A → Prop
  | .call _ as => common → as.isSome = true
  | .cond _ b bs els => Stmts.Ok common b ∧ Branches.Ok common bs ∧ Else.Ok common els
  | .loop is b => is ≠ [] ∧ Stmts.Ok common b
  | .while _ b => Stmts.Ok common b
  | .when _ b => ¬ common ∧ Stmts.Ok common b
  | _ => True
/-- In a list of statements. -/
def Stmts.Ok {D X O A : Type} (common : Prop) : Stmts D X O A → Prop
  | .nil => True
  | .cons s ss => Stmt.Ok common s ∧ Stmts.Ok common ss
/-- In branches. -/
def Branches.Ok {D X O A : Type} (common : Prop) : Branches D X O A → Prop
  | .nil => True
  | .cons _ b bs => Stmts.Ok common b ∧ Branches.Ok common bs
/-- After `else`. -/
def Else.Ok {D X O A : Type} (common : Prop) : Else D X O A → Prop
  | .none => True
  | .some b => Stmts.Ok common b
end

/-- The tokens before which a section ends, with `initial` for the sections of initial equations. -/
def Ends (common : Prop) (t : Tok) : Prop :=
  t ∈ ([tEnd, .other "public", .other "protected", tEquation, tAlgorithm, .other "external", .other "annotation", tEof] : List Tok) ∨
    ¬ common ∧ t = tInitial

/-- A section. -/
def showSection {D X O A : Type} (F : Forms D X O A) (ss : Stmts D X O A) : List Tok := tAlgorithm :: showStmts F ss

end Marco.Spec.StmtParse
