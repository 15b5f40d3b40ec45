import Verif.Model.ArithLowering
import Mathlib.Data.Rat.Floor
import Mathlib.Algebra.Order.Ring.Abs

/-!
# Meaning of the `arith` dialect, and the laws of the arithmetic on `double`

The values of the `arith` dialect are bits, integers of 64 bits, and `double`. The integer operations wrap; the operations
on `i1` see a bit as a signed integer of one bit, whose values are 0 and -1. An undefined operation has no value.
-/

namespace Marco.Spec
open Marco.Fold

/-- The values of the `arith` dialect. -/
inductive AVal (F : Type) where
  | i1 (b : Bool)
  | i64 (n : Int)
  | f64 (x : F)
  deriving DecidableEq

variable {F : Type}

/-- The integer of 64 bits that has the bits of `n`. -/
def wrap64 (n : Int) : Int := Int.bmod n (2 ^ 64)

/-- The signed integer of one bit. -/
def signed1 (b : Bool) : Int := if b then -1 else 0

/-- `addi`, `subi`, `muli`, `divsi`, `andi`, `ori` on integers of one bit. -/
def iop1 : IOp → Bool → Bool → Option Bool
  | .addi, a, b => some (xor a b)
  | .subi, a, b => some (xor a b)
  | .muli, a, b => some (a && b)
  -- the divisor 0 is undefined, and -1 / -1 = 1 overflows
  | .divsi, a, b => if a = false ∧ b = true then some false else none
  | .andi, a, b => some (a && b)
  | .ori, a, b => some (a || b)

/-- `addi`, `subi`, `muli`, `divsi` on integers of 64 bits. The bitwise operations are not used on them. -/
def iop64 : IOp → Int → Int → Option Int
  | .addi, a, b => some (wrap64 (a + b))
  | .subi, a, b => some (wrap64 (a - b))
  | .muli, a, b => some (wrap64 (a * b))
  | .divsi, a, b => if b = 0 ∨ (a = -2 ^ 63 ∧ b = -1) then none else some (Int.tdiv a b)
  | .andi, _, _ => none
  | .ori, _, _ => none

/-- `addf`, `subf`, `mulf`, `divf` -/
def fop64 (fl : Floats F) : FOp → F → F → F
  | .addf => fl.add
  | .subf => fl.sub
  | .mulf => fl.mul
  | .divf => fl.div

/-- `cmpi`: the comparisons are those of signed integers. -/
def icmp : IPred → Int → Int → Bool
  | .eq, a, b => decide (a = b)
  | .ne, a, b => decide (a ≠ b)
  | .sgt, a, b => decide (b < a)
  | .sge, a, b => decide (b ≤ a)
  | .slt, a, b => decide (a < b)
  | .sle, a, b => decide (a ≤ b)

/-- `cmpf`: the ordered comparisons, false when an operand is not a number. -/
def fcmp (fl : Floats F) : FPred → F → F → Bool
  | .oeq, a, b => fl.eq a b
  | .one, a, b => fl.lt a b || fl.lt b a
  | .ogt, a, b => fl.lt b a
  | .oge, a, b => fl.le b a
  | .olt, a, b => fl.lt a b
  | .ole, a, b => fl.le a b

/-- The value of an expression, when it is defined. -/
def evalTm (fl : Floats F) (x y : AVal F) : Tm → Option (AVal F)
  | .lhs => some x
  | .rhs => some y
  | .zero .i1 => some (.i1 false)
  | .zero .i64 => some (.i64 0)
  | .zero .f64 => some (.f64 (fl.ofInt 0))
  | .extui e =>
    match evalTm fl x y e with
    | some (.i1 b) => some (.i64 (if b then 1 else 0))
    | _ => none
  | .trunci e =>
    match evalTm fl x y e with
    | some (.i64 n) => some (.i1 (decide (n % 2 = 1)))
    | _ => none
  | .sitofp e =>
    match evalTm fl x y e with
    | some (.i64 n) => some (.f64 (fl.ofInt n))
    | _ => none
  | .fptosi t e =>
    match t, evalTm fl x y e with
    | .i64, some (.f64 a) => (fl.toInt a).map .i64
    | .i1, some (.f64 a) =>
      match fl.toInt a with
      | some n => if n = 0 then some (.i1 false) else if n = -1 then some (.i1 true) else none
      | none => none
    | _, _ => none
  | .iop o l r =>
    match evalTm fl x y l, evalTm fl x y r with
    | some (.i1 a), some (.i1 b) => (iop1 o a b).map .i1
    | some (.i64 a), some (.i64 b) => (iop64 o a b).map .i64
    | _, _ => none
  | .fop o l r =>
    match evalTm fl x y l, evalTm fl x y r with
    | some (.f64 a), some (.f64 b) => some (.f64 (fop64 fl o a b))
    | _, _ => none
  | .negf e =>
    match evalTm fl x y e with
    | some (.f64 a) => some (.f64 (fl.neg a))
    | _ => none
  | .cmpi p l r =>
    match evalTm fl x y l, evalTm fl x y r with
    | some (.i1 a), some (.i1 b) => some (.i1 (icmp p (signed1 a) (signed1 b)))
    | some (.i64 a), some (.i64 b) => some (.i1 (icmp p a b))
    | _, _ => none
  | .cmpf p l r =>
    match evalTm fl x y l, evalTm fl x y r with
    | some (.f64 a), some (.f64 b) => some (.i1 (fcmp fl p a b))
    | _, _ => none

/-- The value of a constant in the generated code. -/
def constVal : Const F → AVal F
  | .bool b => .i1 b
  | .int n => .i64 n
  | .real x => .f64 x

/-- The value is not a number: it differs from itself. -/
def nan (fl : Floats F) (x : F) : Prop := fl.eq x x = false

/-- The constant stands for the value. Two `double` are the same when they compare equal (the sign of a zero does not
count) or when neither is a number. -/
def SameValue (fl : Floats F) : Const F → AVal F → Prop
  | .bool a, .i1 b => a = b
  | .int a, .i64 b => a = b
  | .real a, .f64 b => fl.eq a b = true ∨ (nan fl a ∧ nan fl b)
  | _, _ => False

/-- An `Integer` constant has 64 bits. -/
def Const64 : Const F → Prop
  | .int n => -2 ^ 63 ≤ n ∧ n < 2 ^ 63
  | _ => True

/-- The integer part of a rational number, towards zero. -/
def truncRat (q : ℚ) : Int := if 0 ≤ q then ⌊q⌋ else ⌈q⌉

/-- What is used of the rounding of numbers to `double`. -/
structure Rounding (rnd : ℚ → ℚ) : Prop where
  mono : ∀ p q, p ≤ q → rnd p ≤ rnd q
  odd : ∀ q, rnd (-q) = -rnd q
  /-- the relative error of 53 bits -/
  error : ∀ q, |rnd q - q| ≤ |q| / 2 ^ 53
  /-- the integers up to `2^53` are `double` -/
  exact : ∀ n : Int, |n| ≤ 2 ^ 53 → rnd n = n
  /-- between `2^53` and `2^54` only the even integers are `double` -/
  even : ∀ n : Int, 2 ^ 53 ≤ n → n ≤ 2 ^ 54 → ∃ k : Int, rnd n = 2 * k

/-- What is used of the arithmetic on `double`, with `num x` the number that `x` stands for (nothing for infinities and for
`NaN`), and `rnd` the rounding where it neither overflows nor underflows. All of it holds for IEEE 754 with rounding to
nearest. That these laws do not contradict each other is shown in `Verif/Props/C65_Folding.lean`. -/
structure Ieee (fl : Floats F) (num : F → Option ℚ) (rnd : ℚ → ℚ) : Prop where
  rounding : Rounding rnd
  /-- the comparisons of numbers -/
  eq_num : ∀ x y a b, num x = some a → num y = some b → fl.eq x y = decide (a = b)
  lt_num : ∀ x y a b, num x = some a → num y = some b → fl.lt x y = decide (a < b)
  eq_none : ∀ x y b, num x = none → num y = some b → fl.eq x y = false
  /-- the values that are numbers or infinite are ordered; `NaN` is not less than anything -/
  trichotomy : ∀ x y, ¬ nan fl x → ¬ nan fl y → (fl.lt x y || fl.lt y x) = !fl.eq x y
  lt_nan : ∀ x y, nan fl x → fl.lt x y = false ∧ fl.lt y x = false
  nan_num : ∀ x, nan fl x → num x = none
  /-- the conversion of an integer of 64 bits -/
  ofInt_num : ∀ n : Int, |n| ≤ 2 ^ 63 → num (fl.ofInt n) = some (rnd n)
  /-- the conversion to an integer cuts the fraction off, and is undefined when there is no number -/
  toInt_num : ∀ x q, num x = some q → |q| < 2 ^ 63 → fl.toInt x = some (truncRat q)
  toInt_none : ∀ x, num x = none → fl.toInt x = none
  /-- -1 * x is -x; the sign of a `NaN` does not count -/
  neg_mul : ∀ x, fl.mul (fl.ofInt (-1)) x = fl.neg x ∨ (nan fl (fl.mul (fl.ofInt (-1)) x) ∧ nan fl (fl.neg x))
  /-- the product of a number with zero, and of an infinite value with zero -/
  zero_mul : ∀ x y b, num x = some 0 → num y = some b → num (fl.mul x y) = some 0
  mul_zero : ∀ x y b, num x = some b → num y = some 0 → num (fl.mul x y) = some 0
  zero_mul_inf : nan fl (fl.mul (fl.ofInt 0) (fl.div (fl.ofInt 1) (fl.ofInt 0)))
  /-- the quotients whose exponent is small, and the division by zero -/
  div_num : ∀ x y a b, num x = some a → num y = some b → b ≠ 0 → a = 0 ∨ (1 : ℚ) / 2 ^ 64 ≤ |a / b| → |a / b| ≤ 2 ^ 64 →
    num (fl.div x y) = some (rnd (a / b))
  div_zero : ∀ x y, num y = some 0 → num (fl.div x y) = none
  inf_not_nan : ¬ nan fl (fl.div (fl.ofInt 1) (fl.ofInt 0))
  zero_div_zero : nan fl (fl.div (fl.ofInt 0) (fl.ofInt 0))

/-- The constant is a number: not infinite, not `NaN`. -/
def FiniteConst (num : F → Option ℚ) : Const F → Prop
  | .real x => num x ≠ none
  | _ => True

/-- The constant is not `NaN`. -/
def NotNan (fl : Floats F) : Const F → Prop
  | .real x => ¬ nan fl x
  | _ => True

/-- The constant is zero. -/
def IsZero (num : F → Option ℚ) : Const F → Prop
  | .bool b => b = false
  | .int n => n = 0
  | .real x => num x = some 0

/-- The constant is an integer below `2^53`, or a Boolean. -/
def Small : Const F → Prop
  | .int n => |n| < 2 ^ 53
  | _ => True

/-- The unary operations for which the folding and the generated code agree. -/
def Agree1 (op : UnOp) (res : Ty) (x : Const F) : Prop :=
  match op with
  | .neg => x.ty ≠ .bool ∧ res ≠ .bool
  | .not => True
  | .cast => res = .bool → x.ty = .bool ∨ x = .int 0 ∨ x = .int 1

/-- The binary operations for which the folding and the generated code agree. -/
def Agree2 (fl : Floats F) (num : F → Option ℚ) (op : BinOp) (res : Ty) (x y : Const F) : Prop :=
  match op with
  | .add => ¬ (x.ty = .bool ∧ y.ty = .bool) ∧ res ≠ .bool
  | .sub => ¬ (x.ty = .bool ∧ y.ty = .bool) ∧ res ≠ .bool
  | .mul => ¬ (x.ty = .bool ∧ y.ty = .bool) ∧ res ≠ .bool ∧
      (IsZero num x → FiniteConst num y) ∧ (IsZero num y → FiniteConst num x)
  | .div => res ≠ .bool ∧ (res = .int → x.ty ≠ .real → y.ty ≠ .real →
      ¬ (x.ty = .bool ∧ y.ty = .bool) ∧ Small x ∧ Small y)
  | .eq => True
  | .ne => NotNan fl x ∧ NotNan fl y
  | .and => NotNan fl x ∧ NotNan fl y
  | .or => NotNan fl x ∧ NotNan fl y
  | .gt => ¬ (x.ty = .bool ∧ y.ty = .bool)
  | .ge => ¬ (x.ty = .bool ∧ y.ty = .bool)
  | .lt => ¬ (x.ty = .bool ∧ y.ty = .bool)
  | .le => ¬ (x.ty = .bool ∧ y.ty = .bool)

end Marco.Spec
