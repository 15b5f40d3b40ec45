import Verif.Model.Derivative
import Mathlib.Analysis.SpecialFunctions.Pow.Deriv
import Mathlib.Analysis.SpecialFunctions.Trigonometric.ArctanDeriv
import Mathlib.Analysis.SpecialFunctions.Trigonometric.InverseDeriv
import Mathlib.Analysis.SpecialFunctions.Trigonometric.DerivHyp
import Mathlib.Analysis.SpecialFunctions.Complex.LogDeriv
import Mathlib.Analysis.SpecialFunctions.Sqrt
import Mathlib.Analysis.SpecialFunctions.Log.Base

/-!
# Meaning of the differentiable expressions

Real numbers instead of floating-point ones. An expression may have no value (`none`): division by
zero, logarithm of a non-positive number, ... (in floating-point arithmetic an infinity or NaN).
-/

namespace Marco.Spec
open Marco.Derivatives Classical

/-- The value of a unary function. -/
noncomputable def fnVal : Fn → ℝ → Option ℝ
  | .acos, x => if -1 ≤ x ∧ x ≤ 1 then some (Real.arccos x) else none
  | .asin, x => if -1 ≤ x ∧ x ≤ 1 then some (Real.arcsin x) else none
  | .atan, x => some (Real.arctan x)
  | .cos, x => some (Real.cos x)
  | .cosh, x => some (Real.cosh x)
  | .exp, x => some (Real.exp x)
  | .log, x => if 0 < x then some (Real.log x) else none
  | .log10, x => if 0 < x then some (Real.logb 10 x) else none
  | .sin, x => some (Real.sin x)
  | .sinh, x => some (Real.sinh x)
  | .sqrt, x => if 0 ≤ x then some (Real.sqrt x) else none
  | .tan, x => if Real.cos x ≠ 0 then some (Real.tan x) else none
  | .tanh, x => some (Real.tanh x)

/-- `x ^ y` as in C: a negative base needs an integer exponent, a zero base a non-negative one. -/
noncomputable def powVal (x y : ℝ) : Option ℝ :=
  if 0 < x ∨ (x = 0 ∧ 0 ≤ y) ∨ (x < 0 ∧ ∃ n : ℤ, y = n) then some (x ^ y) else none

/-- `a / b`. -/
noncomputable def divVal (a b : ℝ) : Option ℝ := if b ≠ 0 then some (a / b) else none

/-- The value of an expression, given the values of the variables and of time. -/
noncomputable def ev (v : Nat → ℝ) (t : ℝ) : Expr → Option ℝ
  | .var n => some (v n)
  | .time => some t
  | .const c => some c
  | .neg a => (ev v t a).map (- ·)
  | .add _ a b => (ev v t a).bind fun x => (ev v t b).bind fun y => some (x + y)
  | .sub _ a b => (ev v t a).bind fun x => (ev v t b).bind fun y => some (x - y)
  | .mul _ a b => (ev v t a).bind fun x => (ev v t b).bind fun y => some (x * y)
  | .div _ a b => (ev v t a).bind fun x => (ev v t b).bind fun y => divVal x y
  | .pow _ a b => (ev v t a).bind fun x => (ev v t b).bind fun y => powVal x y
  | .atan2 a b => (ev v t a).bind fun y => (ev v t b).bind fun x => some (Complex.arg ⟨x, y⟩)
  | .fn f a => (ev v t a).bind (fnVal f)
  | .sum n body => (Expr.collect n fun i => ev v t (body i)).map fun g => ∑ i, g i
  | .malformed _ => none
  | .other => none

/-- Where a unary function is differentiable. -/
def fnSmooth : Fn → ℝ → Prop
  | .acos, x => -1 < x ∧ x < 1
  | .asin, x => -1 < x ∧ x < 1
  | .log, x => 0 < x
  | .log10, x => 0 < x
  | .sqrt, x => 0 < x
  | .tan, x => Real.cos x ≠ 0
  | _, _ => True

/-- Where all the operations of an expression are differentiable at the values of their operands. A
power with constant exponent `c` is a function of the base only: differentiable where the base is
positive, and for integer `c` where the base is not zero or `c` is not negative. -/
def Smooth (v : Nat → ℝ) (t : ℝ) : Expr → Prop
  | .var _ => True
  | .time => True
  | .const _ => True
  | .neg a => Smooth v t a
  | .add _ a b => Smooth v t a ∧ Smooth v t b
  | .sub _ a b => Smooth v t a ∧ Smooth v t b
  | .mul _ a b => Smooth v t a ∧ Smooth v t b
  | .div _ a b => Smooth v t a ∧ Smooth v t b ∧ ∀ y, ev v t b = some y → y ≠ 0
  | .pow _ a b => Smooth v t a ∧ Smooth v t b ∧ ∀ x, ev v t a = some x →
      0 < x ∨ ∃ n : ℤ, b = .const n ∧ (x ≠ 0 ∨ 0 ≤ n)
  | .atan2 a b => Smooth v t a ∧ Smooth v t b ∧
      ∀ y x, ev v t a = some y → ev v t b = some x → 0 < x ∨ y ≠ 0
  | .fn f a => Smooth v t a ∧ ∀ x, ev v t a = some x → fnSmooth f x
  | .sum _ body => ∀ i, Smooth v t (body i)
  | .malformed _ => False
  | .other => False

/-- The derivatives given to the variables: along a curve `v`, at the time `t`, the derivative
variables have the derivatives of their variables, and the variables without a derivative variable
are constant. -/
def DerivativesAt (st : Expr.State) (v : ℝ → Nat → ℝ) (τ : ℝ → ℝ) (t : ℝ) : Prop :=
  HasDerivAt τ st.dTime t ∧
  (∀ n m, st.der n = some m → HasDerivAt (fun s => v s n) (v t m) t) ∧
  (∀ n, st.der n = none → HasDerivAt (fun s => v s n) 0 t)

/-- Around `t` the expression has a value, its derivative at `t` is `d`. -/
def DerivativeIs (v : ℝ → Nat → ℝ) (τ : ℝ → ℝ) (t : ℝ) (e : Expr) (d : ℝ) : Prop :=
  ∃ F : ℝ → ℝ, (∀ᶠ s in nhds t, ev (v s) (τ s) e = some (F s)) ∧ HasDerivAt F d t

end Marco.Spec
