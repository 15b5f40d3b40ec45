/-!
# Model of the creation of the initial equations
(`/repo/lib/Codegen/Lowering/ModelLowerer.cpp`, `/repo/lib/AST/BaseModelica/Modification.cpp`, and, in
`/repo/lib/Dialect/BaseModelica/Transforms`, `BindingEquationConversion.cpp`, `ExplicitStartValueInsertion.cpp`,
`ExplicitInitialEquationsInsertion.cpp` and `InitialConditionsSolving.cpp`)

The binding equations and the attributes `start` and `fixed` of the variables become equations of the model, initial
equations, and start equations. Expressions are opaque: what counts is their rank. The equations of the source are
given by numbers. Records and expressions of `fixed` that are not accepted are left out.
-/

namespace Marco.StartVals

/-- The region of an operation: the code of an expression with the rank of its value, or the constant created for a
variable without start value (ExplicitStartValueInsertion.cpp:87-101), which has the rank of the variable. -/
inductive Region where
  | code (id rank : Nat)
  | zero (rank : Nat)
  deriving DecidableEq, Repr

/-- The rank of the type of the yielded value, 0 for scalars. -/
def Region.rank : Region → Nat
  | .code _ r => r
  | .zero r => r

/-- An `ElementModification` of a declaration, in the order of the source: `start = e`, `fixed = b` or another one; each
may be preceded by `each`. -/
inductive Arg where
  | start (each : Bool) (e : Region)
  | fixed (each : Bool) (b : Bool)
  | other (each : Bool)
  deriving DecidableEq, Repr

/-- A variable of the model. -/
structure Decl where
  name : Nat
  shape : List Nat
  /-- `parameter` or `constant` -/
  readOnly : Bool
  /-- a constant can be created for its type -/
  materializable : Bool
  binding : Option Region
  args : List Arg
  deriving DecidableEq, Repr

/-- Modification.cpp:172-229: the expression of the first `start`. -/
def startExpression : List Arg → Option Region
  | [] => none
  | .start _ e :: _ => some e
  | _ :: l => startExpression l

/-- Modification.cpp:260-311: the value of the first `fixed`, `false` if there is none. -/
def fixedProperty : List Arg → Bool
  | [] => false
  | .fixed _ b :: _ => b
  | _ :: l => fixedProperty l

/-- Modification.cpp:313-324: whether the first modification has `each`. -/
def eachProperty : List Arg → Bool
  | [] => false
  | .start e _ :: _ => e
  | .fixed e _ :: _ => e
  | .other e :: _ => e

/-- A `StartOp`. -/
structure Start where
  var : Nat
  fixed : Bool
  each : Bool
  implicit : Bool
  value : Region
  deriving DecidableEq, Repr

/-- An equation template: the number of inductions; the variable on the left-hand side with the inductions it is
accessed with; the region that computes the right-hand side with the inductions its value is accessed with. The
instance has the indices of the variable. -/
structure Template where
  inductions : Nat
  var : Nat
  lhs : List Nat
  region : Region
  rhs : List Nat
  deriving DecidableEq, Repr

/-- An equation: of the source, or created. -/
inductive Equation where
  | user (id : Nat)
  | made (t : Template)
  deriving DecidableEq, Repr

/-- The operations of a model. -/
structure Model where
  decls : List Decl
  starts : List Start
  /-- the equations of the `DynamicOp`s -/
  dynamic : List Equation
  /-- the equations of the `InitialOp`s -/
  initial : List Equation

/-- ModelLowerer.cpp:87-94 and 190-215: the `StartOp`s of the attributes. -/
def lowerAttributes (d : Decl) : List Start :=
  match startExpression d.args with
  | some e => [⟨d.name, fixedProperty d.args, eachProperty d.args, false, e⟩]
  | none => []

/-- BindingEquationConversion.cpp:49-114: the equation for a binding equation. All inductions are used on both sides. -/
def bindingTemplate (d : Decl) (e : Region) : Template :=
  ⟨d.shape.length, d.name, List.range d.shape.length, e, List.range d.shape.length⟩

/-- BindingEquationConversion.cpp:120-141: the `StartOp` for the binding equation of a read-only variable. -/
def bindingStart (d : Decl) (e : Region) : Start := ⟨d.name, true, false, false, e⟩

/-- The binding equations of the read-only variables become `StartOp`s. The binding equations are lowered before the
attributes (ModelLowerer.cpp:72-94). -/
def bindingStarts (ds : List Decl) : List Start :=
  ds.flatMap fun d => match d.binding with
    | some e => if d.readOnly then [bindingStart d e] else []
    | none => []

/-- The binding equations of the other variables become equations. -/
def bindingEquations (ds : List Decl) : List Equation :=
  ds.flatMap fun d => match d.binding with
    | some e => if d.readOnly then [] else [.made (bindingTemplate d e)]
    | none => []

/-- The model after `BindingEquationConversion`. -/
def convertBindings (ds : List Decl) (dynamic initial : List Equation) : Model :=
  ⟨ds, bindingStarts ds ++ ds.flatMap lowerAttributes, dynamic ++ bindingEquations ds, initial⟩

/-- ExplicitStartValueInsertion.cpp:44-105. -/
def insertStarts (m : Model) : Model :=
  { m with starts := m.starts ++ (m.decls.filter fun d =>
      d.materializable && !(m.starts.map (·.var)).contains d.name).map fun d =>
        ⟨d.name, false, false, true, .zero d.shape.length⟩ }

/-- `take_back` (llvm/ADT/ArrayRef.h): undefined if there are not enough elements. -/
def takeBack (l : List Nat) (n : Nat) : Option (List Nat) :=
  if n ≤ l.length then some (l.drop (l.length - n)) else none

/-- `lookupSymbolIn`. -/
def lookup (m : Model) (x : Nat) : Option Decl := m.decls.find? fun d => d.name == x

/-- ExplicitInitialEquationsInsertion.cpp:87-163 and InitialConditionsSolving.cpp:48-96: the template for a `StartOp`; the
value is accessed with the last inductions. -/
def startTemplate (m : Model) (s : Start) : Option Template := do
  let d ← lookup m s.var
  let inductions := List.range d.shape.length
  let rhs ← takeBack inductions s.value.rank
  pure ⟨d.shape.length, d.name, inductions, s.value, rhs⟩

/-- ExplicitInitialEquationsInsertion.cpp:51-164: the equations are copied, and those for the fixed start values are
added. `none`: undefined behaviour. -/
def insertInitialEquations (m : Model) : Option Model := do
  let ts ← (m.starts.filter (·.fixed)).mapM (startTemplate m)
  pure { m with initial := m.initial ++ m.dynamic ++ ts.map .made }

/-- InitialConditionsSolving.cpp:141-148 and 98-131: the start equations. -/
def startEquations (m : Model) : Option (List Template) :=
  (m.starts.filter fun s => !s.fixed && !s.implicit).mapM (startTemplate m)

/-- The passes, in the order of FrontendActions.cpp:904-909. -/
def passes (ds : List Decl) (dynamic initial : List Equation) : Option Model :=
  insertInitialEquations (insertStarts (convertBindings ds dynamic initial))

end Marco.StartVals
