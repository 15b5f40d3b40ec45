/-!
# Model of the folding of the operations on scalar constants
(`/repo/lib/Dialect/BaseModelica/IR/Ops.cpp`, `Attributes.cpp`, `Dialect.cpp`)

The constants are those of the types `Boolean`, `Integer` and `Real`; the types of MLIR (`index`, `i64`, `f64`), which the code
treats in the same way, and the arrays are left out. An `Integer` has 64 bits (`Types.cpp:102-112`), a `Real` is a `double`
(`Types.cpp:127-137`). The arithmetic on `double` is a parameter of the model.
-/

namespace Marco.Fold

/-- The scalar types of the Base Modelica dialect. -/
inductive Ty where
  | bool
  | int
  | real
  deriving DecidableEq, Repr

/-- The operations on `double`. The C++ code and the generated code use the same ones. `toInt` is the conversion to a
signed integer of 64 bits, which is undefined when the value does not fit. -/
structure Floats (F : Type) where
  ofInt : Int → F
  toInt : F → Option Int
  add : F → F → F
  sub : F → F → F
  mul : F → F → F
  div : F → F → F
  neg : F → F
  eq : F → F → Bool
  lt : F → F → Bool
  le : F → F → Bool

/-- The constants: `BooleanAttr`, `IntegerAttr`, `RealAttr`. -/
inductive Const (F : Type) where
  | bool (b : Bool)
  | int (n : Int)
  | real (x : F)
  deriving DecidableEq

/-- The type of a constant. -/
def Const.ty {F : Type} : Const F → Ty
  | .bool _ => .bool
  | .int _ => .int
  | .real _ => .real

/-- The result of a folding. -/
inductive Res (F : Type) where
  /-- the C++ code runs into undefined behaviour -/
  | undefined
  /-- the operation is kept -/
  | kept
  /-- the operation is replaced with a constant -/
  | folded (c : Const F)

variable {F : Type}

/-- `/repo/lib/Dialect/BaseModelica/IR/Dialect.cpp:322-341,363-375` (`isScalarIntegerLike`, `getScalarIntegerLikeValue`) -/
def intLike : Const F → Option Int
  | .bool b => some (if b then 1 else 0)
  | .int n => some n
  | .real _ => none

/-- `/repo/lib/Dialect/BaseModelica/IR/Dialect.cpp:343-361,377-385` (`isScalarFloatLike`, `getScalarFloatLikeValue`), and
the conversion `static_cast<double>(getScalarIntegerLikeValue(...))` of the other constants, which the folding
functions do at the places where they use a `double`. -/
def asDouble (fl : Floats F) : Const F → F
  | .bool b => fl.ofInt (if b then 1 else 0)
  | .int n => fl.ofInt n
  | .real x => x

/-- `/repo/lib/Dialect/BaseModelica/IR/Attributes.cpp:71-97` (`getAttr` of an `int64_t`) -/
def getAttrInt (fl : Floats F) (t : Ty) (n : Int) : Res F :=
  match t with
  | .bool => .folded (.bool (n != 0))
  | .int => .folded (.int n)
  | .real => .folded (.real (fl.ofInt n))

/-- `/repo/lib/Dialect/BaseModelica/IR/Attributes.cpp:99-125` (`getAttr` of a `double`). The conversion to `int64_t` is
undefined when the value does not fit. -/
def getAttrDouble (fl : Floats F) (t : Ty) (x : F) : Res F :=
  match t with
  | .bool => .folded (.bool (!fl.eq x (fl.ofInt 0)))
  | .int =>
    match fl.toInt x with
    | some n => .folded (.int n)
    | none => .undefined
  | .real => .folded (.real x)

/-- The sum, difference or product of two `int64_t`, given to `getAttr`. The overflow of signed integers is undefined in
C++. -/
def getAttrInt64 (fl : Floats F) (t : Ty) (n : Int) : Res F :=
  if -2 ^ 63 ≤ n ∧ n < 2 ^ 63 then getAttrInt fl t n else .undefined

/-- The four cases of the folding of a binary operation (for example `Ops.cpp:2486-2511`): on two integers, else on two
`double`. -/
def onScalars (fl : Floats F) (ints : Int → Int → Res F) (doubles : F → F → Res F) (a b : Const F) : Res F :=
  match intLike a, intLike b with
  | some x, some y => ints x y
  | _, _ => doubles (asDouble fl a) (asDouble fl b)

/-- `getAttr(resultType, static_cast<int64_t>(c))` -/
def getAttrBool (fl : Floats F) (t : Ty) (c : Bool) : Res F :=
  getAttrInt fl t (if c then 1 else 0)

/-- `value != 0` on the value of a constant (`Ops.cpp:6022-6054`, `6139-6171`). -/
def nonZero (fl : Floats F) (a : Const F) : Bool :=
  match intLike a with
  | some n => n != 0
  | none => !fl.eq (asDouble fl a) (fl.ofInt 0)

/-- The unary operations. -/
inductive UnOp where
  | neg
  | not
  | cast
  deriving DecidableEq

/-- The binary operations. -/
inductive BinOp where
  | add
  | sub
  | mul
  | div
  | eq
  | ne
  | gt
  | ge
  | lt
  | le
  | and
  | or
  deriving DecidableEq

/-- `/repo/lib/Dialect/BaseModelica/IR/Ops.cpp:2144-2164` (`NegateOp`), `5918-5940` (`NotOp`), `11482-11504` (`CastOp`) -/
def fold1 (fl : Floats F) (op : UnOp) (res : Ty) (a : Const F) : Res F :=
  match op with
  | .neg =>
    match intLike a with
    | some n => getAttrInt64 fl res (-1 * n)
    | none => getAttrDouble fl res (fl.mul (fl.ofInt (-1)) (asDouble fl a))
  | .not =>
    match intLike a with
    | some n => getAttrBool fl res (n == 0)
    | none => getAttrBool fl res (fl.eq (asDouble fl a) (fl.ofInt 0))
  | .cast =>
    match intLike a with
    | some n => getAttrInt fl res n
    | none => getAttrDouble fl res (asDouble fl a)

/-- The folding of a binary operation whose operands are constants: `/repo/lib/Dialect/BaseModelica/IR/Ops.cpp:2476-2511`
(`AddOp`), `3136-3171` (`SubOp`), `3898-3924` (`MulOp`, from the test of the scalars on), `4598-4635` (`DivOp`),
`5497-5534` (`EqOp`), `5565-5602` (`NotEqOp`), `5632-5669` (`GtOp`), `5699-5736` (`GteOp`), `5766-5803` (`LtOp`), `5833-5870`
(`LteOp`), `6012-6057` (`AndOp`), `6129-6174` (`OrOp`) -/
def foldConstants (fl : Floats F) (op : BinOp) (res : Ty) (a b : Const F) : Res F :=
  match op with
  | .add => onScalars fl (fun x y => getAttrInt64 fl res (x + y)) (fun x y => getAttrDouble fl res (fl.add x y)) a b
  | .sub => onScalars fl (fun x y => getAttrInt64 fl res (x - y)) (fun x y => getAttrDouble fl res (fl.sub x y)) a b
  | .mul => onScalars fl (fun x y => getAttrInt64 fl res (x * y)) (fun x y => getAttrDouble fl res (fl.mul x y)) a b
  | .div =>
    onScalars fl (fun x y => getAttrDouble fl res (fl.div (fl.ofInt x) (fl.ofInt y)))
      (fun x y => getAttrDouble fl res (fl.div x y)) a b
  | .eq => onScalars fl (fun x y => getAttrBool fl res (x == y)) (fun x y => getAttrBool fl res (fl.eq x y)) a b
  | .ne => onScalars fl (fun x y => getAttrBool fl res (x != y)) (fun x y => getAttrBool fl res (!fl.eq x y)) a b
  | .gt => onScalars fl (fun x y => getAttrBool fl res (decide (x > y))) (fun x y => getAttrBool fl res (fl.lt y x)) a b
  | .ge => onScalars fl (fun x y => getAttrBool fl res (decide (x ≥ y))) (fun x y => getAttrBool fl res (fl.le y x)) a b
  | .lt => onScalars fl (fun x y => getAttrBool fl res (decide (x < y))) (fun x y => getAttrBool fl res (fl.lt x y)) a b
  | .le => onScalars fl (fun x y => getAttrBool fl res (decide (x ≤ y))) (fun x y => getAttrBool fl res (fl.le x y)) a b
  | .and => getAttrBool fl res (nonZero fl a && nonZero fl b)
  | .or => getAttrBool fl res (nonZero fl a || nonZero fl b)

/-- `getScalarAttributeValue<double>(attribute) == 0` (`Ops.cpp:151-160,3886,3892`), false for an operand which is not a
constant. -/
def isZero (fl : Floats F) : Option (Const F) → Bool
  | some a => fl.eq (asDouble fl a) (fl.ofInt 0)
  | none => false

/-- The folding of a binary operation; an operand is `none` when it is not a constant. A product is folded when one of its
operands is the constant zero (`Ops.cpp:3886-3896`); all the other foldings ask for two constants (for example `2480-2482`). -/
def fold2 (fl : Floats F) (op : BinOp) (res : Ty) (a b : Option (Const F)) : Res F :=
  if op = .mul ∧ (isZero fl a = true ∨ isZero fl b = true) then getAttrInt fl res 0
  else
    match a, b with
    | some a, some b => foldConstants fl op res a b
    | _, _ => .kept

end Marco.Fold
