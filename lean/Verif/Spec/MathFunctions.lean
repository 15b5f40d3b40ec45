import Verif.Model.MathFunctions
import Verif.Spec.Ranges

/-!
# The mathematical functions of Modelica on numbers, and the laws of the C library
-/

namespace Marco.Spec
open Marco.Fold

/-- Modelica 3.6, 3.7.1: `ceil`, `floor`, `integer`, `abs`, `sign`. -/
def numFn1 (f : Fn1) (q : ℚ) : ℚ :=
  match f with
  | .abs => |q|
  | .ceil => ⌈q⌉
  | .floor => ⌊q⌋
  | .integer => ⌊q⌋
  | .sign => if q = 0 then 0 else if 0 < q then 1 else -1

/-- Modelica 3.6, 3.7.1: `div` (the quotient without its fraction), `mod` (`x - floor(x / y) * y`), `rem` (`x - div(x, y) * y`); `max`,
`min` (10.3.4); the power (10.6.7) with an integer as its exponent. -/
def numFn2 (f : Fn2) (x y : ℚ) : Option ℚ :=
  match f with
  | .div => if y = 0 then none else some (truncRat (x / y) : ℚ)
  | .mod => if y = 0 then none else some (x - ⌊x / y⌋ * y)
  | .rem => if y = 0 then none else some (x - truncRat (x / y) * y)
  | .max => some (max x y)
  | .min => some (min x y)
  | .pow => if y.den = 1 ∧ (x ≠ 0 ∨ 0 ≤ y) then some (x ^ y.num) else none

variable {F : Type}

/-- The constant stands for the number; a `Real` constant may be its rounding. -/
def Represents (num : F → Option ℚ) (rnd : ℚ → ℚ) (c : Const F) (q : ℚ) : Prop :=
  match c with
  | .bool _ => False
  | .int n => (n : ℚ) = q
  | .real x => num x = some q ∨ num x = some (rnd q)

/-- What is used of the functions of the C library. -/
structure MathLaws (fl : MathFloats F) (num : F → Option ℚ) (rnd : ℚ → ℚ) : Prop extends ExactOps fl.toFloats num rnd where
  le_num : ∀ x y a b, num x = some a → num y = some b → fl.le x y = decide (a ≤ b)
  abs_num : ∀ x a, num x = some a → num (fl.abs x) = some |a|
  ceil_num : ∀ x a, num x = some a → num (fl.ceil x) = some (⌈a⌉ : ℚ)
  floor_num : ∀ x a, num x = some a → num (fl.floor x) = some (⌊a⌋ : ℚ)
  trunc_num : ∀ x a, num x = some a → num (fl.trunc x) = some (truncRat a : ℚ)
  /-- the remainder is exact -/
  fmod_num : ∀ x y a b, num x = some a → num y = some b → b ≠ 0 → num (fl.fmod x y) = some (a - truncRat (a / b) * b)
  /-- the powers that are representable, and not too large nor too small -/
  pow_exact : ∀ x y a (n : Int), num x = some a → num y = some (n : ℚ) → a ≠ 0 ∨ 0 ≤ n → rnd (a ^ n) = a ^ n →
    a ^ n = 0 ∨ (1 : ℚ) / 2 ^ 64 ≤ |a ^ n| → |a ^ n| ≤ 2 ^ 64 → num (fl.pow x y) = some (a ^ n)

/-- The constants for which the folding of a function of two operands is right. -/
def Exact2 (f : Fn2) (x y : Const F) : Prop :=
  match f with
  | .div => ∃ m n, x = .int m ∧ y = .int n ∧ |m| < 2 ^ 53 ∧ |n| < 2 ^ 53
  | .mod => ∃ m n, x = .int m ∧ y = .int n ∧ |m| + |n| ≤ 2 ^ 53
  | .rem => (∃ m n, x = .int m ∧ y = .int n ∧ ¬ (m = -2 ^ 63 ∧ n = -1)) ∨ (∃ a b, x = .real a ∧ y = .real b) ∨
      (∃ m b, x = .int m ∧ y = .real b ∧ |m| ≤ 2 ^ 53) ∨ (∃ a n, x = .real a ∧ y = .int n ∧ |n| ≤ 2 ^ 53)
  | .max => (∃ m n, x = .int m ∧ y = .int n) ∨ (∃ a b, x = .real a ∧ y = .real b) ∨
      (∃ m b, x = .int m ∧ y = .real b ∧ |m| ≤ 2 ^ 53) ∨ (∃ a n, x = .real a ∧ y = .int n ∧ |n| ≤ 2 ^ 53)
  | .min => (∃ m n, x = .int m ∧ y = .int n) ∨ (∃ a b, x = .real a ∧ y = .real b) ∨
      (∃ m b, x = .int m ∧ y = .real b ∧ |m| ≤ 2 ^ 53) ∨ (∃ a n, x = .real a ∧ y = .int n ∧ |n| ≤ 2 ^ 53)
  | .pow => ∃ (m : Int) (n : ℕ), x = .int m ∧ y = .int n ∧ |m| ≤ 2 ^ 53 ∧ n ≤ 2 ^ 53 ∧ |m ^ n| ≤ 2 ^ 53

end Marco.Spec
