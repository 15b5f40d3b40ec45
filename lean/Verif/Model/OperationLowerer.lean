import Verif.Model.ExprParser

/-!
# Model of the lowering of operations (`/repo/lib/Codegen/Lowering/OperationLowerer.cpp`)

Operations of the syntax tree become operations of the dialect. The SSA values are trees: sharing, locations and
types are left out. The nodes that other lowerers handle (references, calls, constants, arrays, tuples) are
leaves, which are assumed to be lowered to one value. The assertions are the ones of a release build: nothing
is checked, and a read beyond the end of a vector is undefined behaviour.
-/

namespace Marco.Parse

/-- The operations of the dialect that are created (include/marco/Dialect/BaseModelica/IR/Ops.td). -/
inductive IrOp where
  | negateOp | addOp | addEWOp | subOp | subEWOp | mulOp | mulEWOp | divOp | divEWOp | selectOp
  | gtOp | gteOp | eqOp | notEqOp | lteOp | ltOp | andOp | orOp | notOp
  | tensorViewOp | powOp | powEWOp | rangeOp | unboundedRangeOp
  deriving DecidableEq, Repr

/-- Values of the dialect. -/
inductive Ir where
  /-- what another lowerer creates for the node -/
  | leaf (a : Ast)
  /-- `ConstantOp` with an index attribute -/
  | index (n : Int)
  | op (k : IrOp) (args : List Ir)

/-- The outcome of a lowering: a value, or undefined behaviour. -/
inductive Low (α : Type) where
  | ok (a : α)
  | ub

/-- OperationLowerer.cpp:118-525, the functions `negate` … `range`, given the lowered arguments. -/
def lowerOp : Op → List Ir → Low Ir
  -- 118-130
  | .negate, x :: _ => .ok (.op .negateOp [x])
  -- 132-157: after the first round of the loop `current` is empty, and its elements are read
  | .add, [x, y] => .ok (.op .addOp [x, y])
  -- 159-171
  | .addEW, x :: y :: _ => .ok (.op .addEWOp [x, y])
  -- 173-185
  | .subtract, x :: y :: _ => .ok (.op .subOp [x, y])
  -- 187-199
  | .subtractEW, x :: y :: _ => .ok (.op .subEWOp [x, y])
  -- 201-227, as `add`
  | .multiply, [x, y] => .ok (.op .mulOp [x, y])
  -- 229-241
  | .multiplyEW, x :: y :: _ => .ok (.op .mulEWOp [x, y])
  -- 243-255
  | .divide, x :: y :: _ => .ok (.op .divOp [x, y])
  -- 257-269
  | .divideEW, x :: y :: _ => .ok (.op .divEWOp [x, y])
  -- 271-323, for branches with one value
  | .ifelse, c :: x :: y :: _ => .ok (.op .selectOp [c, x, y])
  -- 325-337
  | .greater, x :: y :: _ => .ok (.op .gtOp [x, y])
  -- 339-351
  | .greaterEqual, x :: y :: _ => .ok (.op .gteOp [x, y])
  -- 353-365
  | .equal, x :: y :: _ => .ok (.op .eqOp [x, y])
  -- 367-379
  | .different, x :: y :: _ => .ok (.op .notEqOp [x, y])
  -- 381-393
  | .lessEqual, x :: y :: _ => .ok (.op .lteOp [x, y])
  -- 395-407
  | .less, x :: y :: _ => .ok (.op .ltOp [x, y])
  -- 409-421
  | .land, x :: y :: _ => .ok (.op .andOp [x, y])
  -- 423-435
  | .lnot, x :: _ => .ok (.op .notOp [x])
  -- 437-449
  | .lor, x :: y :: _ => .ok (.op .orOp [x, y])
  -- 451-472
  | .subscription, x :: is => .ok (.op .tensorViewOp (x :: is))
  -- 474-486
  | .powerOf, x :: y :: _ => .ok (.op .powOp [x, y])
  -- 488-500
  | .powerOfEW, x :: y :: _ => .ok (.op .powEWOp [x, y])
  -- 502-525: the operands of the operation are the lower bound, the upper bound and the step
  | .range, [x, y] => .ok (.op .rangeOp [x, y, .index 1])
  | .range, x :: y :: z :: _ => .ok (.op .rangeOp [x, z, y])
  | _, _ => .ub

mutual
/-- lib/Codegen/Lowering/ExpressionLowerer.cpp:11-43, with OperationLowerer.cpp:10-92 and
SubscriptLowerer.cpp:10-41: a subscript is shifted by the addition of the index -1. -/
def lower : Ast → Low Ir
  | .op k args =>
    match lowerArgs args with
    | .ok xs => lowerOp k xs
    | .ub => .ub
  | .sub e =>
    match lower e with
    | .ok x => .ok (.op .addOp [x, .index (-1)])
    | .ub => .ub
  | .subAll => .ok (.op .unboundedRangeOp [])
  | a => .ok (.leaf a)
/-- OperationLowerer.cpp:94-116, `lowerArgs` and `lowerArg`. -/
def lowerArgs : List Ast → Low (List Ir)
  | [] => .ok []
  | a :: as =>
    match lower a with
    | .ok x =>
      match lowerArgs as with
      | .ok xs => .ok (x :: xs)
      | .ub => .ub
    | .ub => .ub
end

end Marco.Parse
