import Verif.Model.DeclParser

/-! # The written form of declarations (Modelica 3.x, appendix A.2.4, with the dimensions after the type) -/

namespace Marco.Spec.DeclParse
open Marco.DeclParse

/-- The tokens that may follow an expression in a declaration. -/
def stop : Tok → Bool
  | .comma | .rpar | .rsquare | .semicolon | .str _ | .kAnnotation => true
  | _ => false

/-- `E` reads the expressions that are written with `pr`, up to the tokens that may follow, as the trees `val`; and no expression begins with
a colon. -/
structure Reads {X Y : Type} (E : List Tok → Res Y) (pr : X → List Tok) (val : X → Y) : Prop where
  read : ∀ e t r, stop t = true → E (pr e ++ t :: r) = .ok (val e) (t :: r)
  head : ∀ e, (pr e).head? ≠ some .colon

mutual
/-- The trees of the expressions in a modification. -/
def mapMod {X Y : Type} (val : X → Y) : Modif X → Modif Y
  | .value e => .value (val e)
  | .cls as => .cls (mapArgs val as)
  | .clsValue as e => .clsValue (mapArgs val as) (val e)
/-- In the arguments. -/
def mapArgs {X Y : Type} (val : X → Y) : Args X → Args Y
  | .one a => .one (mapArg val a)
  | .cons a as => .cons (mapArg val a) (mapArgs val as)
/-- In an argument. -/
def mapArg {X Y : Type} (val : X → Y) : Arg X → Arg Y
  | .plain each final n => .plain each final n
  | .withMod each final n m => .withMod each final n (mapMod val m)
end

/-- In a dimension. -/
def mapDim {X Y : Type} (val : X → Y) : Dim X → Dim Y
  | .all => .all
  | .num n => .num n
  | .expr e => .expr (val e)

/-- A flag. -/
def flag (b : Bool) (t : Tok) : List Tok := if b then [t] else []

mutual
/-- A modification. -/
def showMod {X : Type} (pr : X → List Tok) : Modif X → List Tok
  | .value e => .equal :: pr e
  | .cls as => .lpar :: (showArgs pr as ++ [.rpar])
  | .clsValue as e => .lpar :: (showArgs pr as ++ .rpar :: .equal :: pr e)
/-- The arguments. -/
def showArgs {X : Type} (pr : X → List Tok) : Args X → List Tok
  | .one a => showArg pr a
  | .cons a as => showArg pr a ++ .comma :: showArgs pr as
/-- An argument. -/
def showArg {X : Type} (pr : X → List Tok) : Arg X → List Tok
  | .plain each final n => flag each .kEach ++ (flag final .kFinal ++ [.ident n])
  | .withMod each final n m => flag each .kEach ++ (flag final .kFinal ++ .ident n :: showMod pr m)
end

/-- A dimension. -/
def showDim {X : Type} (pr : X → List Tok) : Dim X → List Tok
  | .all => [.colon]
  | .num n => [.int n]
  | .expr e => pr e

/-- Dimensions, up to the closing bracket. -/
def showDims {X : Type} (pr : X → List Tok) : List (Dim X) → List Tok
  | [] => []
  | [d] => showDim pr d ++ [.rsquare]
  | d :: ds => showDim pr d ++ .comma :: showDims pr ds

/-- The rest of a path. -/
def showPath : List String → List Tok
  | [] => []
  | n :: ns => .dot :: .ident n :: showPath ns

/-- A type. -/
def showTy : Ty → List Tok
  | .string => [.ident "String"]
  | .boolean => [.ident "Boolean"]
  | .integer => [.ident "Integer"]
  | .real => [.ident "Real"]
  | .user global [] => flag global .dot
  | .user global (n :: ns) => flag global .dot ++ .ident n :: showPath ns

/-- The types that have a written form: a path is not empty and does not begin with the name of a built-in type. -/
def Ty.Ok : Ty → Prop
  | .user _ [] => False
  | .user _ (n :: _) => n ∉ ["String", "Boolean", "Integer", "Real"]
  | _ => True

/-- The prefixes. -/
def showVariability : Variability → List Tok
  | .none => []
  | .discrete => [.kDiscrete]
  | .parameter => [.kParameter]
  | .constant => [.kConstant]

/-- The prefixes. -/
def showIO : IO → List Tok
  | .none => []
  | .input => [.kInput]
  | .output => [.kOutput]

/-- A declaration in the source: what is kept, and `final`, the comment and the annotation. -/
structure Decl (X : Type) where
  final : Bool
  variability : Variability
  io : IO
  ty : Ty
  dims : List (Dim X)
  name : String
  mod : Option (Modif X)
  comment : Option String
  annotation : Option (Args X)

/-- The tokens of a declaration, with the semicolon. -/
def showDecl {X : Type} (pr : X → List Tok) (d : Decl X) : List Tok :=
  flag d.final .kFinal ++ (showVariability d.variability ++ (showIO d.io ++ (showTy d.ty ++
    ((if d.dims = [] then [] else .lsquare :: showDims pr d.dims) ++ (.ident d.name :: ((match d.mod with
      | none => []
      | some m => showMod pr m) ++ ((match d.comment with
        | none => []
        | some s => [.str s]) ++ ((match d.annotation with
          | none => []
          | some as => .kAnnotation :: .lpar :: (showArgs pr as ++ [.rpar])) ++ [.semicolon]))))))))

/-- The declarations that have a written form: the type has one, and a dimension that is a number is not given as an expression. -/
def Decl.Ok {X : Type} (pr : X → List Tok) (d : Decl X) : Prop :=
  Ty.Ok d.ty ∧ ∀ e, Dim.expr e ∈ d.dims → ∀ n, pr e ≠ [.int n]

/-- A dimension that is an expression begins with a number. -/
def Decl.NumberFirst {X : Type} (pr : X → List Tok) (d : Decl X) : Prop :=
  ∃ e n, Dim.expr e ∈ d.dims ∧ (pr e).head? = some (.int n)

/-- What a declaration declares. -/
def Decl.member {X Y : Type} (val : X → Y) (d : Decl X) (pub : Bool) : Member Y :=
  ⟨d.name, d.ty, d.dims.map (mapDim val), d.variability, d.io, pub, d.mod.map (mapMod val)⟩

/-- The sequence of declarations. -/
def showDecls {X : Type} (pr : X → List Tok) : List (Decl X) → List Tok
  | [] => []
  | d :: ds => showDecl pr d ++ showDecls pr ds

end Marco.Spec.DeclParse
