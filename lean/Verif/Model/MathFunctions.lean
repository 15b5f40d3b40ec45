import Verif.Model.Folding

/-!
# Model of the folding of the mathematical functions on scalar constants
(`/repo/lib/Dialect/BaseModelica/IR/Ops.cpp`)

The functions on which Modelica defines integers: `abs`, `ceil`, `floor`, `integer`, `sign`, `div`, `mod`, `rem`, `max`, `min`, and
the power. The other functions (`sin`, `exp`, ...) call the functions of the C library of the same name.
-/

namespace Marco.Fold

/-- The functions of the C library on `double`. -/
structure MathFloats (F : Type) extends Floats F where
  abs : F → F
  ceil : F → F
  floor : F → F
  trunc : F → F
  fmod : F → F → F
  pow : F → F → F

variable {F : Type}

/-- The functions of one operand. -/
inductive Fn1 where
  | abs
  | ceil
  | floor
  | integer
  | sign
  deriving DecidableEq

/-- The functions of two operands. -/
inductive Fn2 where
  | div
  | mod
  | rem
  | max
  | min
  | pow
  deriving DecidableEq

/-- The sign of a value (`Ops.cpp:7218-7224`, `7230-7236`): a value that is neither zero nor positive gets -1. -/
def signOf (zero pos : Bool) : Int := if zero then 0 else if pos then 1 else -1

/-- `/repo/lib/Dialect/BaseModelica/IR/Ops.cpp:6352-6374` (`AbsOp`), `6474-6496` (`CeilOp`), `6640-6662` (`FloorOp`),
`6669-6691` (`IntegerOp`), `7204-7240` (`SignOp`). `std::abs` of the smallest integer is undefined. -/
def foldFn1 (fl : MathFloats F) (f : Fn1) (res : Ty) (a : Const F) : Res F :=
  match intLike a with
  | some n =>
    match f with
    | .abs => getAttrInt64 fl.toFloats res (if n < 0 then -n else n)
    | .ceil => getAttrInt fl.toFloats res n
    | .floor => getAttrInt fl.toFloats res n
    | .integer => getAttrInt fl.toFloats res n
    | .sign => getAttrInt fl.toFloats res (signOf (n == 0) (decide (n > 0)))
  | none =>
    let x := asDouble fl.toFloats a
    match f with
    | .abs => getAttrDouble fl.toFloats res (fl.abs x)
    | .ceil => getAttrDouble fl.toFloats res (fl.ceil x)
    | .floor => getAttrDouble fl.toFloats res (fl.floor x)
    | .integer => getAttrDouble fl.toFloats res (fl.floor x)
    | .sign => getAttrInt fl.toFloats res (signOf (fl.eq x (fl.ofInt 0)) (fl.lt (fl.ofInt 0) x))

/-- `xValue - std::floor(xValue / yValue) * yValue` (`Ops.cpp:7127`) -/
def modDouble (fl : MathFloats F) (x y : F) : F := fl.sub x (fl.mul (fl.floor (fl.div x y)) y)

/-- `x % y` on `int64_t`: undefined for `y = 0`, and when the quotient overflows. -/
def remInt (fl : Floats F) (res : Ty) (x y : Int) : Res F :=
  if y = 0 ∨ (x = -2 ^ 63 ∧ y = -1) then .undefined else getAttrInt fl res (Int.tmod x y)

/-- `/repo/lib/Dialect/BaseModelica/IR/Ops.cpp:6565-6602` (`DivTruncOp`), `7112-7149` (`ModOp`), `7160-7193` (`RemOp`), `6877-6927`
(`MaxOp`), `7053-7103` (`MinOp`), `5261-5310` (`PowOp`, the part on two scalars). `std::max(a, b)` is `a < b ? b : a`, and
`std::min(a, b)` is `b < a ? b : a`; with operands of different types the code compares with `>=` and `<=`. -/
def foldFn2 (fl : MathFloats F) (f : Fn2) (res : Ty) (a b : Const F) : Res F :=
  let x := asDouble fl.toFloats a
  let y := asDouble fl.toFloats b
  match f with
  | .div =>
    match intLike a, intLike b with
    | some _, some _ => getAttrDouble fl.toFloats res (fl.div x y)
    | _, _ => getAttrDouble fl.toFloats res (fl.trunc (fl.div x y))
  | .mod => getAttrDouble fl.toFloats res (modDouble fl x y)
  | .rem => onScalars fl.toFloats (remInt fl.toFloats res) (fun x y => getAttrDouble fl.toFloats res (fl.fmod x y)) a b
  | .max =>
    match intLike a, intLike b with
    | some m, some n => getAttrInt fl.toFloats res (if m < n then n else m)
    | none, none => getAttrDouble fl.toFloats res (if fl.lt x y then y else x)
    | _, _ => getAttrDouble fl.toFloats res (if fl.le y x then x else y)
  | .min =>
    match intLike a, intLike b with
    | some m, some n => getAttrInt fl.toFloats res (if n < m then n else m)
    | none, none => getAttrDouble fl.toFloats res (if fl.lt y x then y else x)
    | _, _ => getAttrDouble fl.toFloats res (if fl.le x y then x else y)
  | .pow => getAttrDouble fl.toFloats res (fl.pow x y)

/-- The type of the result: `/repo/lib/Codegen/Lowering/CallLowerer.cpp:777-791` (`abs`), `972-986` (`ceil`), `1271-1285` (`floor`),
`1337-1351` (`integer`), `1772-1775` (`sign`) -/
def fnType1 (f : Fn1) (t : Ty) : Ty :=
  match f with
  | .abs => t
  | .ceil => .real
  | .floor => .real
  | .integer => .int
  | .sign => .int

/-- The type of the result: `/repo/lib/Codegen/Lowering/CallLowerer.cpp:1153-1158` (`div`), `1613-1618` (`mod`), `1743-1748` (`rem`),
`/repo/lib/Dialect/BaseModelica/IR/Ops.cpp:6760-6785` (`MaxOp`), `6936-6961` (`MinOp`), `5216-5245` (`PowOp`), with
`getMostGenericScalarType` (`Dialect.cpp:197-211`). -/
def fnType2 (f : Fn2) (s t : Ty) : Ty :=
  match f with
  | .div => if s = .real ∨ t = .real then .real else .int
  | .mod => if s = .real ∨ t = .real then .real else .int
  | .rem => if s = .real ∨ t = .real then .real else .int
  | .max => if s = .bool then t else if s = .int then (if t = .bool then s else t) else s
  | .min => if s = .bool then t else if s = .int then (if t = .bool then s else t) else s
  | .pow => if t = .real then t else s

end Marco.Fold
