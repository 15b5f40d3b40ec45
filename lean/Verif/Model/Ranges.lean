import Verif.Model.ArithLowering

/-!
# Model of the operations on ranges
(`/repo/lib/Dialect/BaseModelica/IR/Ops.cpp`, `/repo/lib/Codegen/Conversion/BaseModelicaToArith/BaseModelicaToArith.cpp`)

The `index` type is taken as an integer of 64 bits.
-/

namespace Marco.Fold

variable {F : Type}

/-- The constant ranges: `IntegerRangeAttr` and `RealRangeAttr` (`/repo/include/marco/Dialect/BaseModelica/IR/Attributes.td`), with
the lower bound, the upper bound and the step. -/
inductive ConstRange (F : Type) where
  | int (lower upper step : Int)
  | real (lower upper step : F)

/-- `/repo/lib/Dialect/BaseModelica/IR/Ops.cpp:254-306` (`RangeOp::fold`, with three constants) -/
def foldRange (fl : Floats F) (lower upper step : Const F) : ConstRange F :=
  match intLike lower, intLike upper, intLike step with
  | some l, some u, some s => .int l u s
  | _, _, _ => .real (asDouble fl lower) (asDouble fl upper) (asDouble fl step)

/-- `/repo/lib/Dialect/BaseModelica/IR/Ops.cpp:313-338` (`RangeBeginOp::fold`) -/
def rangeBegin : ConstRange F → Const F
  | .int l _ _ => .int l
  | .real l _ _ => .real l

/-- `/repo/lib/Dialect/BaseModelica/IR/Ops.cpp:345-370` (`RangeEndOp::fold`) -/
def rangeEnd : ConstRange F → Const F
  | .int _ u _ => .int u
  | .real _ u _ => .real u

/-- `/repo/lib/Dialect/BaseModelica/IR/Ops.cpp:377-401` (`RangeStepOp::fold`) -/
def rangeStep : ConstRange F → Const F
  | .int _ _ s => .int s
  | .real _ _ s => .real s

/-- A value of type `int64_t`; undefined on overflow. -/
def int64 (n : Int) : Option Int := if -2 ^ 63 ≤ n ∧ n < 2 ^ 63 then some n else none

/-- `/repo/lib/Dialect/BaseModelica/IR/Ops.cpp:408-435` (`RangeSizeOp::fold`): `1 + (end - begin) / step`. The result is `none` when
the C++ code is undefined: overflow, division by zero, a `double` that does not fit into `int64_t`. -/
def rangeSize (fl : Floats F) : ConstRange F → Option Int
  | .int l u s =>
    match int64 (u - l) with
    | some d => if s = 0 then none else (int64 (Int.tdiv d s)).bind fun q => int64 (1 + q)
    | none => none
  | .real l u s => fl.toInt (fl.add (fl.ofInt 1) (fl.div (fl.sub u l) s))

/-- The type of the values of a range. -/
def ConstRange.ty : ConstRange F → Ty
  | .int _ _ _ => .int
  | .real _ _ _ => .real

/-- `/repo/lib/Codegen/Conversion/BaseModelicaToArith/BaseModelicaToArith.cpp:208-236` (`RangeSizeOpLowering`): the difference of the end
and the begin in the type of the range, its quotient by the step as an `index`, and the sum with one. -/
def lowerSize (t : Ty) : Tm × Tm × Tm :=
  (lower2 .sub (convertType t) (convertType t) (convertType t),
   lower2 .div (convertType t) (convertType t) .i64,
   lower2 .add .i64 .i64 .i64)

/-- The result of the folding of an operation on a range. -/
inductive RangeRes (F : Type) where
  | undefined
  | kept
  | folded (r : ConstRange F)

/-- The operands of a sum or of a difference. -/
inductive Operand (F : Type) where
  | scalar (c : Const F)
  | range (r : ConstRange F)

/-- A range of integers whose bounds have been computed in `int64_t`. -/
def intRange (l u : Int) (s : Int) : RangeRes F :=
  match int64 l, int64 u with
  | some l, some u => .folded (.int l u s)
  | _, _ => .undefined

/-- `/repo/lib/Dialect/BaseModelica/IR/Ops.cpp:2512-2569` (`AddOp::fold`, the part on ranges). Only a range on the left is folded. -/
def addRange (fl : Floats F) : Operand F → Operand F → RangeRes F
  | .range (.int l u s), .scalar c =>
    match intLike c with
    | some n => intRange (l + n) (u + n) s
    | none => .folded (.real (fl.add (fl.ofInt l) (asDouble fl c)) (fl.add (fl.ofInt u) (asDouble fl c)) (fl.ofInt s))
  | .range (.real l u s), .scalar c =>
    .folded (.real (fl.add l (asDouble fl c)) (fl.add u (asDouble fl c)) s)
  | _, _ => .kept

/-- `/repo/lib/Dialect/BaseModelica/IR/Ops.cpp:3172-3229` (`SubOp::fold`, the part on ranges) -/
def subRange (fl : Floats F) : Operand F → Operand F → RangeRes F
  | .range (.int l u s), .scalar c =>
    match intLike c with
    | some n => intRange (l - n) (u - n) s
    | none => .folded (.real (fl.sub (fl.ofInt l) (asDouble fl c)) (fl.sub (fl.ofInt u) (asDouble fl c)) (fl.ofInt s))
  | .range (.real l u s), .scalar c =>
    .folded (.real (fl.sub l (asDouble fl c)) (fl.sub u (asDouble fl c)) s)
  | _, _ => .kept

/-- `/repo/lib/Dialect/BaseModelica/IR/Ops.cpp:2365-2385` (`AddOpRangeOrderingPattern`): a range on the right goes to the left. -/
def orderRange : Operand F × Operand F → Operand F × Operand F
  | (.scalar c, .range r) => (.range r, .scalar c)
  | p => p

end Marco.Fold
