import Verif.Model.Ranges
import Verif.Spec.Arith

/-!
# The elements of a range, and more laws of the arithmetic on `double`

The range `b : s : e` of Modelica (Modelica 3.6, 10.4.3) has the elements `b`, `b + s`, `b + 2 s`, ... that do not go beyond `e`.
-/

namespace Marco.Spec
open Marco.Fold

/-- The element with the number `i` is in the range from `b` to `e` with the step `s`. -/
def InSteps (b e s : ℚ) (i : ℕ) : Prop := (0 < s ∧ b + i * s ≤ e) ∨ (s < 0 ∧ e ≤ b + i * s)

/-- `x` is an element of the range. -/
def RangeElement (b e s x : ℚ) : Prop := ∃ i : ℕ, InSteps b e s i ∧ x = b + i * s

/-- The range has `n` elements. -/
def RangeSizeIs (b e s : ℚ) (n : Int) : Prop := 0 ≤ n ∧ ∀ i : ℕ, (i : Int) < n ↔ InSteps b e s i

variable {F : Type}

/-- The number that a constant stands for. -/
def constNum (num : F → Option ℚ) : Const F → Option ℚ
  | .bool b => some (if b then 1 else 0)
  | .int n => some n
  | .real x => num x

/-- The first number, the last number and the step. -/
def RangeNums (num : F → Option ℚ) (r : ConstRange F) (b e s : ℚ) : Prop :=
  match r with
  | .int l u d => b = l ∧ e = u ∧ s = d
  | .real l u d => num l = some b ∧ num u = some e ∧ num d = some s

/-- The integers of a range have 64 bits. -/
def Range64 : ConstRange F → Prop
  | .int l u s => (-2 ^ 63 ≤ l ∧ l < 2 ^ 63) ∧ (-2 ^ 63 ≤ u ∧ u < 2 ^ 63) ∧ (-2 ^ 63 ≤ s ∧ s < 2 ^ 63)
  | .real _ _ _ => True

/-- The size of a range that the generated code computes. -/
def runSize (fl : Floats F) (r : ConstRange F) : Option (AVal F) :=
  let c := lowerSize r.ty
  (evalTm fl (constVal (rangeEnd r)) (constVal (rangeBegin r)) c.1).bind fun d =>
    (evalTm fl d (constVal (rangeStep r)) c.2.1).bind fun q => evalTm fl q (.i64 1) c.2.2

/-- More laws of the arithmetic on `double`: sums, differences and products that are representable are exact. -/
structure ExactOps (fl : Floats F) (num : F → Option ℚ) (rnd : ℚ → ℚ) : Prop extends Ieee fl num rnd where
  /-- the fractions with few bits are `double` -/
  dyadic : ∀ (n : Int) (k : ℕ), |n| ≤ 2 ^ 53 → k ≤ 64 → rnd (n / 2 ^ k) = n / 2 ^ k
  idem : ∀ q, rnd (rnd q) = rnd q
  add_exact : ∀ x y a b, num x = some a → num y = some b → rnd (a + b) = a + b → |a + b| ≤ 2 ^ 64 →
    num (fl.add x y) = some (a + b)
  sub_exact : ∀ x y a b, num x = some a → num y = some b → rnd (a - b) = a - b → |a - b| ≤ 2 ^ 64 →
    num (fl.sub x y) = some (a - b)
  mul_exact : ∀ x y a b, num x = some a → num y = some b → rnd (a * b) = a * b → a * b = 0 ∨ (1 : ℚ) / 2 ^ 64 ≤ |a * b| →
    |a * b| ≤ 2 ^ 64 → num (fl.mul x y) = some (a * b)

end Marco.Spec
