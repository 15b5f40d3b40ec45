import Verif.Model.Distribution
import Mathlib.Data.Rat.Defs
import Mathlib.Algebra.BigOperators.Fin

/-!
# The value of an expression (Modelica Language Specification, section 10.6), for numbers, vectors and matrices
-/

namespace Marco.Spec.Distr
open Marco.Distr

/-- A value. -/
inductive Value where
  | num (x : ℚ)
  | vec (n : ℕ) (v : Fin n → ℚ)
  | mat (m n : ℕ) (a : Fin m → Fin n → ℚ)

/-- The number of dimensions. -/
def Value.rank : Value → ℕ
  | .num _ => 0
  | .vec _ _ => 1
  | .mat _ _ _ => 2

/-- A function applied to the elements. -/
def Value.map (f : ℚ → ℚ) : Value → Value
  | .num x => .num (f x)
  | .vec n v => .vec n fun i => f (v i)
  | .mat m n a => .mat m n fun i j => f (a i j)

/-- No element is zero. -/
def Value.NonZero : Value → Prop
  | .num x => x ≠ 0
  | .vec _ v => ∀ i, v i ≠ 0
  | .mat _ _ a => ∀ i j, a i j ≠ 0

/-- An operation on the elements of values of the same size. -/
inductive Zip (f : ℚ → ℚ → ℚ) : Value → Value → Value → Prop
  | num {x y} : Zip f (.num x) (.num y) (.num (f x y))
  | vec {n v w} : Zip f (.vec n v) (.vec n w) (.vec n fun i => f (v i) (w i))
  | mat {m n a b} : Zip f (.mat m n a) (.mat m n b) (.mat m n fun i j => f (a i j) (b i j))

/-- The element-wise operations also take a number and an array. -/
inductive Elem (f : ℚ → ℚ → ℚ) : Value → Value → Value → Prop
  | zip {a b c} : Zip f a b c → Elem f a b c
  | left {x b} : Elem f (.num x) b (b.map fun y => f x y)
  | right {a y} : Elem f a (.num y) (a.map fun x => f x y)

/-- The product. -/
inductive Product : Value → Value → Value → Prop
  | left {x b} : Product (.num x) b (b.map fun y => x * y)
  | right {a y} : Product a (.num y) (a.map fun x => x * y)
  | dot {n v w} : Product (.vec n v) (.vec n w) (.num (∑ i, v i * w i))
  | vecmat {m n v a} : Product (.vec m v) (.mat m n a) (.vec n fun j => ∑ i, v i * a i j)
  | matvec {m n a v} : Product (.mat m n a) (.vec n v) (.vec m fun i => ∑ j, a i j * v j)
  | matmat {m k n a b} : Product (.mat m k a) (.mat k n b) (.mat m n fun i j => ∑ h, a i h * b h j)

/-- The result of an operation: a quotient is defined if the divisor is not zero. -/
def Result : Op → Value → Value → Value → Prop
  | .add => Zip (· + ·)
  | .addEW => Elem (· + ·)
  | .sub => Zip (· - ·)
  | .subEW => Elem (· - ·)
  | .mul => Product
  | .mulEW => Elem (· * ·)
  | .div => fun a b c => ∃ x, b = .num x ∧ x ≠ 0 ∧ c = a.map fun y => y / x
  | .divEW => fun a b c => b.NonZero ∧ Elem (· / ·) a b c

/-- The expression has a value. -/
inductive Has (ρ : ℕ → Value) : Ex → Value → Prop
  | leaf {i} : Has ρ (.leaf i) (ρ i)
  | neg {e a} : Has ρ e a → Has ρ (.neg e) (a.map fun x => -x)
  | bin {o l r a b c} : Has ρ l a → Has ρ r b → Result o a b c → Has ρ (.bin o l r) c

/-- There is no quotient of which the divisor is an operation and the dividend is not. -/
def NoQuotient : Ex → Prop
  | .leaf _ => True
  | .neg e => NoQuotient e
  | .bin o l r => NoQuotient l ∧ NoQuotient r ∧ ((o = .div ∨ o = .divEW) → l.isOp = false → r.isOp = false)

end Marco.Spec.Distr
