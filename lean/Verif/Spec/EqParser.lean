import Verif.Model.EqParser

/-! # The written form of equation sections (Modelica 3.x, appendix A.2.6) -/

namespace Marco.Spec.EqParse
open Marco.EqParse
open Marco.Parse (Tok Res)

/-- The tokens that may follow an expression in an equation section, other than the `=` after the left side. -/
def stop : Tok → Bool
  | .kThen | .comma | .str _ => true
  | .other s => s ∈ ["loop", ";"]
  | _ => false

/-- The keywords that begin an equation or end a list of equations: no expression on the left of an equation begins with them. -/
def keywords : List Tok := [.kIf, .kFor, .kElse, .kElseIf, tWhen, tElseWhen] ++
  [.other "public", .other "protected", tInitial, tEquation, .other "algorithm", .other "external", .other "annotation", tEnd]

/-- `E` reads the expressions that are written with `prL` (on the left of equations) and `prX` (elsewhere) as their trees. -/
structure Reads {L X Y : Type} (E : List Tok → Res Y) (prL : L → List Tok) (valL : L → Y) (prX : X → List Tok) (valX : X → Y) : Prop where
  left : ∀ e r, E (prL e ++ .assign :: r) = .ok (valL e) (.assign :: r)
  right : ∀ e t r, stop t = true → E (prX e ++ t :: r) = .ok (valX e) (t :: r)
  head : ∀ e, ∃ t r, prL e = t :: r ∧ t ∉ keywords

mutual
/-- The trees of the expressions in an equation. -/
def mapEqn {L Z X L' Z' X' : Type} (fl : L → L') (fz : Z → Z') (fx : X → X') : Eqn L Z X → Eqn L' Z' X'
  | .equal l r => .equal (fl l) (fz r)
  | .loop is b => .loop (is.map fun i => (i.1, i.2.map fx)) (mapEqns fl fz fx b)
  | .cond w c b bs els => .cond w (fx c) (mapEqns fl fz fx b) (mapBranches fl fz fx bs) (mapEqns fl fz fx els)
/-- In a list of equations. -/
def mapEqns {L Z X L' Z' X' : Type} (fl : L → L') (fz : Z → Z') (fx : X → X') : Eqns L Z X → Eqns L' Z' X'
  | .nil => .nil
  | .cons e es => .cons (mapEqn fl fz fx e) (mapEqns fl fz fx es)
/-- In branches. -/
def mapBranches {L Z X L' Z' X' : Type} (fl : L → L') (fz : Z → Z') (fx : X → X') : Branches L Z X → Branches L' Z' X'
  | .nil => .nil
  | .cons c b bs => .cons (fx c) (mapEqns fl fz fx b) (mapBranches fl fz fx bs)
end

/-- An index. -/
def showIndex {X : Type} (prX : X → List Tok) : String × Option X → List Tok
  | (s, none) => [.ident s]
  | (s, some e) => .ident s :: .kIn :: prX e

/-- Indices. -/
def showIndices {X : Type} (prX : X → List Tok) : List (String × Option X) → List Tok
  | [] => []
  | [i] => showIndex prX i
  | i :: is => showIndex prX i ++ .comma :: showIndices prX is

/-- The comment of an equation. -/
def showComment : Option String → List Tok
  | none => []
  | some s => [.str s]

/-- The keyword of conditional equations, also after `end`. -/
def keyword (when : Bool) : Tok := if when then tWhen else .kIf

/-- The keyword of the branches. -/
def elseKeyword (when : Bool) : Tok := if when then tElseWhen else .kElseIf

/-- The source of equations: on the right there may be a comment. -/
abbrev Source (L X : Type) : Type := Eqn L (X × Option String) X
/-- Lists of them. -/
abbrev Sources (L X : Type) : Type := Eqns L (X × Option String) X
/-- Branches. -/
abbrev SourceBranches (L X : Type) : Type := Branches L (X × Option String) X

mutual
/-- An equation. -/
def showEqn {L X : Type} (prL : L → List Tok) (prX : X → List Tok) : Source L X → List Tok
  | .equal l r => prL l ++ .assign :: (prX r.1 ++ showComment r.2)
  | .loop is b => .kFor :: (showIndices prX is ++ tLoop :: (showEqns prL prX b ++ [tEnd, .kFor]))
  | .cond w c b bs els => keyword w :: (prX c ++ .kThen :: (showEqns prL prX b ++ (showBranches prL prX (elseKeyword w) bs ++
      (showElse prL prX els ++ [tEnd, keyword w]))))
/-- A list of equations. -/
def showEqns {L X : Type} (prL : L → List Tok) (prX : X → List Tok) : Sources L X → List Tok
  | .nil => []
  | .cons e es => showEqn prL prX e ++ tSemicolon :: showEqns prL prX es
/-- What is after `else`, if anything. -/
def showElse {L X : Type} (prL : L → List Tok) (prX : X → List Tok) : Sources L X → List Tok
  | .nil => []
  | .cons e es => .kElse :: (showEqn prL prX e ++ tSemicolon :: showEqns prL prX es)
/-- The branches. -/
def showBranches {L X : Type} (prL : L → List Tok) (prX : X → List Tok) (k : Tok) : SourceBranches L X → List Tok
  | .nil => []
  | .cons c b bs => k :: (prX c ++ .kThen :: (showEqns prL prX b ++ showBranches prL prX k bs))
end

mutual
/-- Each loop has an index; `when` does not occur if `noWhen`. -/
def Eqn.Ok {L Z X : Type} (noWhen : Prop) : Eqn L Z X → Prop
  | .equal _ _ => True
  | .loop is b => is ≠ [] ∧ Eqns.Ok noWhen b
  | .cond w _ b bs els => (noWhen → w = false) ∧ Eqns.Ok noWhen b ∧ Branches.Ok noWhen bs ∧ Eqns.Ok noWhen els
/-- In a list of equations. -/
def Eqns.Ok {L Z X : Type} (noWhen : Prop) : Eqns L Z X → Prop
  | .nil => True
  | .cons e es => Eqn.Ok noWhen e ∧ Eqns.Ok noWhen es
/-- In branches. -/
def Branches.Ok {L Z X : Type} (noWhen : Prop) : Branches L Z X → Prop
  | .nil => True
  | .cons _ b bs => Eqns.Ok noWhen b ∧ Branches.Ok noWhen bs
end

/-- The tokens after which a section ends. -/
def Ends (t : Tok) : Prop :=
  t ∈ ([.other "public", .other "protected", tInitial, tEquation, .other "algorithm", .other "external", .other "annotation", tEnd] : List Tok)

/-- A section. -/
def showSection {L X : Type} (prL : L → List Tok) (prX : X → List Tok) (init : Bool) (es : Sources L X) : List Tok :=
  (if init then [tInitial] else []) ++ tEquation :: showEqns prL prX es

end Marco.Spec.EqParse
