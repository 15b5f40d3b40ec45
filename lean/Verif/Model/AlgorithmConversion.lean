import Verif.Model.Statements
import Mathlib.Data.List.Dedup

/-!
# Model of the conversion of the algorithms of models
(`/repo/lib/Dialect/BaseModelica/Transforms/ModelAlgorithmConversion.cpp` and
`/repo/lib/Dialect/BaseModelica/Transforms/ExplicitStartValueInsertion.cpp`)

An algorithm of a model becomes a function, which takes the variables that are only read and returns those that
are written, and one equation for each of the latter. The operations are those of
`Verif/Model/Statements.lean`: all variables are scalar, hence the equations have no inductions and `each` makes no
difference.
-/

namespace Marco.AlgConv
open Marco.Stmts

/-- A `StartOp`: the variable and the value that its region yields. -/
structure Start where
  var : String
  value : IrEx

/-- A `ModelOp`: the variables, with the information whether a constant can be created for their type, and the
`StartOp`s. -/
structure Model where
  vars : List (String × Bool)
  starts : List Start

/-- A `FunctionOp` created for an algorithm. -/
structure Fn where
  inputs : List String
  outputs : List String
  /-- the `DefaultOp`s -/
  defaults : List Start
  body : IrSt

/-- An equation template with its instance: the variable on the left-hand side; the variables read for the
arguments of the call; the number of the result of the call that is on the right-hand side. -/
structure Equation where
  lhs : String
  args : List String
  result : Nat
  deriving DecidableEq

/-- The `VariableGetOp`s in an expression. -/
def exGets : IrEx → List String
  | .const _ => []
  | .get x => [x]
  | .ind _ => []
  | .op _ a b => exGets a ++ exGets b

/-- ModelAlgorithmConversion.cpp:31-36: the variables of the `VariableGetOp`s of an algorithm, at any depth. -/
def gets : IrSt → List String
  | .skip | .noRegion | .breakOp | .returnOp => []
  | .seq a b => gets a ++ gets b
  | .set _ e => exGets e
  | .ifOp c a b => exGets c ++ (gets a ++ gets b)
  | .forOp _ l u s a => exGets l ++ (exGets u ++ (exGets s ++ gets a))
  | .whileOp c a => exGets c ++ gets a

/-- ModelAlgorithmConversion.cpp:38-43: the variables of the `VariableSetOp`s. -/
def sets : IrSt → List String
  | .skip | .noRegion | .breakOp | .returnOp => []
  | .seq a b => sets a ++ sets b
  | .set x _ => [x]
  | .ifOp _ a b => sets a ++ sets b
  | .forOp _ _ _ _ a => sets a
  | .whileOp _ a => sets a

/-- ModelAlgorithmConversion.cpp:208-219 (`getStartOp`): the first one of the variable. `none`: the end of the
function is reached, which is undefined. -/
def getStart (m : Model) (x : String) : Option Start := m.starts.find? fun s => s.var == x

/-- ModelAlgorithmConversion.cpp:22-200: the function and the equations. The sets of variables (28-29) are visited in
an order that depends on addresses: `order` may be any permutation. -/
def convert (order : List String → List String) (m : Model) (a : IrSt) : Option (Fn × List Equation) := do
  -- 45-56
  let outputs := order (sets a).dedup
  let inputs := (order (gets a).dedup).filter fun x => !(sets a).contains x
  -- 96-122
  let defaults ← outputs.mapM (getStart m)
  -- 132-194
  let equations := outputs.zipIdx.map fun x => ⟨x.1, inputs, x.2⟩
  pure (⟨inputs, outputs, defaults, a⟩, equations)

/-- ExplicitStartValueInsertion.cpp:44-105: a start value for the variables without one. -/
def insertStarts (m : Model) : Model :=
  { m with starts := m.starts ++ (m.vars.filter fun v =>
      v.2 && !(m.starts.map (·.var)).contains v.1).map fun v => ⟨v.1, .const 0⟩ }

end Marco.AlgConv
