import Verif.Model.OperationLowerer

/-!
# Values of expressions

An `Alg` interprets the operators over any kind of values (numbers, booleans, arrays, ranges). The value of an
expression and that of an operation of the dialect are defined separately, each one from its documentation.
-/

namespace Marco.Spec
open Marco.Parse

/-- An interpretation of the operators. -/
structure Alg (V : Type) where
  neg : V → V
  add : V → V → V
  addEW : V → V → V
  sub : V → V → V
  subEW : V → V → V
  mul : V → V → V
  mulEW : V → V → V
  div : V → V → V
  divEW : V → V → V
  pow : V → V → V
  powEW : V → V → V
  gt : V → V → V
  ge : V → V → V
  eq : V → V → V
  ne : V → V → V
  le : V → V → V
  lt : V → V → V
  and : V → V → V
  or : V → V → V
  not : V → V
  /-- the second value if the first one is true, the third one otherwise -/
  ite : V → V → V → V
  /-- first element, distance between the elements, limit -/
  range : V → V → V → V
  /-- an integer -/
  index : Int → V
  /-- the part of an array at the given positions, counted from 0 -/
  view : V → List V → V
  /-- all the positions -/
  all : V

/-- The value of an operator of Modelica (Modelica Language Specification, "Operators and Expressions"): `and` and
`or` have any number of operands, of which the value is that of the binary operator applied from the left;
`a : b` has step 1; in `a : b : c` the step is in the middle. -/
def apply {V : Type} (A : Alg V) : Op → List V → Option V
  | .negate, [x] => some (A.neg x)
  | .add, [x, y] => some (A.add x y)
  | .addEW, [x, y] => some (A.addEW x y)
  | .subtract, [x, y] => some (A.sub x y)
  | .subtractEW, [x, y] => some (A.subEW x y)
  | .multiply, [x, y] => some (A.mul x y)
  | .multiplyEW, [x, y] => some (A.mulEW x y)
  | .divide, [x, y] => some (A.div x y)
  | .divideEW, [x, y] => some (A.divEW x y)
  | .powerOf, [x, y] => some (A.pow x y)
  | .powerOfEW, [x, y] => some (A.powEW x y)
  | .greater, [x, y] => some (A.gt x y)
  | .greaterEqual, [x, y] => some (A.ge x y)
  | .equal, [x, y] => some (A.eq x y)
  | .different, [x, y] => some (A.ne x y)
  | .lessEqual, [x, y] => some (A.le x y)
  | .less, [x, y] => some (A.lt x y)
  | .land, x :: xs => some (xs.foldl A.and x)
  | .lor, x :: xs => some (xs.foldl A.or x)
  | .lnot, [x] => some (A.not x)
  | .ifelse, [c, x, y] => some (A.ite c x y)
  | .range, [x, y] => some (A.range x (A.index 1) y)
  | .range, [x, s, y] => some (A.range x s y)
  | .subscription, x :: is => some (A.view x is)
  | _, _ => none

mutual
/-- The value of an expression, given the one of the nodes that are not operations. A subscript counts from 1. -/
def value {V : Type} (A : Alg V) (leaf : Ast → V) : Ast → Option V
  | .op k args => (values A leaf args).bind (apply A k)
  | .sub e => (value A leaf e).map fun v => A.add v (A.index (-1))
  | .subAll => some A.all
  | a => some (leaf a)
/-- The values of some expressions. -/
def values {V : Type} (A : Alg V) (leaf : Ast → V) : List Ast → Option (List V)
  | [] => some []
  | a :: as => (value A leaf a).bind fun v => (values A leaf as).map fun vs => v :: vs
end

/-- The value of an operation of the dialect (the descriptions in Ops.td): the operands of `RangeOp` are the lower
bound, the upper bound and the step. -/
def irApply {V : Type} (A : Alg V) : IrOp → List V → Option V
  | .negateOp, [x] => some (A.neg x)
  | .addOp, [x, y] => some (A.add x y)
  | .addEWOp, [x, y] => some (A.addEW x y)
  | .subOp, [x, y] => some (A.sub x y)
  | .subEWOp, [x, y] => some (A.subEW x y)
  | .mulOp, [x, y] => some (A.mul x y)
  | .mulEWOp, [x, y] => some (A.mulEW x y)
  | .divOp, [x, y] => some (A.div x y)
  | .divEWOp, [x, y] => some (A.divEW x y)
  | .powOp, [x, y] => some (A.pow x y)
  | .powEWOp, [x, y] => some (A.powEW x y)
  | .gtOp, [x, y] => some (A.gt x y)
  | .gteOp, [x, y] => some (A.ge x y)
  | .eqOp, [x, y] => some (A.eq x y)
  | .notEqOp, [x, y] => some (A.ne x y)
  | .lteOp, [x, y] => some (A.le x y)
  | .ltOp, [x, y] => some (A.lt x y)
  | .andOp, [x, y] => some (A.and x y)
  | .orOp, [x, y] => some (A.or x y)
  | .notOp, [x] => some (A.not x)
  | .selectOp, [c, x, y] => some (A.ite c x y)
  | .rangeOp, [lower, upper, step] => some (A.range lower step upper)
  | .tensorViewOp, x :: is => some (A.view x is)
  | .unboundedRangeOp, [] => some A.all
  | _, _ => none

mutual
/-- The value of an SSA value. -/
def irValue {V : Type} (A : Alg V) (leaf : Ast → V) : Ir → Option V
  | .leaf a => some (leaf a)
  | .index n => some (A.index n)
  | .op k args => (irValues A leaf args).bind (irApply A k)
/-- The values of some SSA values. -/
def irValues {V : Type} (A : Alg V) (leaf : Ast → V) : List Ir → Option (List V)
  | [] => some []
  | a :: as => (irValue A leaf a).bind fun v => (irValues A leaf as).map fun vs => v :: vs
end

mutual
/-- No chain of `and` or `or` has more than two operands. -/
def noChain : Ast → Bool
  | .op k args => ((k != .land && k != .lor) || args.length == 2) && noChains args
  | .sub e => noChain e
  | _ => true
/-- The same for some expressions. -/
def noChains : List Ast → Bool
  | [] => true
  | a :: as => noChain a && noChains as
end

end Marco.Spec
