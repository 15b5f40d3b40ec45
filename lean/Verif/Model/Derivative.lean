import Mathlib.Data.Rat.Defs

/-!
# Model of `DerivableOpInterface`
(`/repo/lib/Dialect/BaseModelica/Transforms/DerivableOpInterfaceImpl.cpp`)

Scalar operations. The operations on tensors and arrays (lines 111-827, 2587-2638), which apply the
rules element by element, the statements (VariableSet, If, For, While, Algorithm) and calls
(3242-3349, whose derivative is a call of the derived function) are not modelled. The graph of SSA
values is unfolded to a tree. All the failures are `none`.
-/

namespace Marco.Derivatives

/-- The unary functions. -/
inductive Fn where
  | acos | asin | atan | cos | cosh | exp | log | log10 | sin | sinh | sqrt | tan | tanh
  deriving DecidableEq, Repr

/-- The derivable expressions. -/
inductive Expr where
  /-- VariableGetOp -/
  | var (n : Nat)
  /-- TimeOp -/
  | time
  /-- ConstantOp -/
  | const (c : ℚ)
  /-- NegateOp -/
  | neg (a : Expr)
  /-- AddOp, AddEWOp (`ew`) -/
  | add (ew : Bool) (a b : Expr)
  /-- SubOp, SubEWOp -/
  | sub (ew : Bool) (a b : Expr)
  /-- MulOp, MulEWOp -/
  | mul (ew : Bool) (a b : Expr)
  /-- DivOp, DivEWOp -/
  | div (ew : Bool) (a b : Expr)
  /-- PowOp, PowEWOp -/
  | pow (ew : Bool) (a b : Expr)
  /-- Atan2Op: `y`, `x` -/
  | atan2 (y x : Expr)
  /-- the unary functions -/
  | fn (f : Fn) (a : Expr)
  /-- ReductionOp "add": its body for each value of the inductions -/
  | sum (n : Nat) (body : Fin n → Expr)
  /-- PowEWOp created with a single operand -/
  | malformed (a : Expr)
  /-- an operation that is not derivable -/
  | other

namespace Expr

/-- The rules of the unary functions: DerivableOpInterfaceImpl.cpp:2148-2182 (acos), 2219-2252 (asin),
2289-2320 (atan), 2442-2466 (cos), 2503-2525 (cosh), 2562-2584 (exp), 2674-2693 (log), 2730-2758
(log10), 2795-2817 (sin), 2854-2876 (sinh), 2913-2940 (sqrt), 2977-3005 (tan), 3042-3069 (tanh). -/
def dFn : Fn → Expr → Expr → Expr
  | .acos, a, a' => neg (div true a' (fn .sqrt (sub true (const 1) (pow true a (const 2)))))
  | .asin, a, a' => div true a' (fn .sqrt (sub true (const 1) (pow true a (const 2))))
  | .atan, a, a' => div true a' (add true (const 1) (pow true a (const 2)))
  | .cos, a, a' => mul true (neg (fn .sin a)) a'
  | .cosh, a, a' => mul true (fn .sinh a) a'
  | .exp, a, a' => mul true (fn .exp a) a'
  | .log, a, a' => div true a' a
  | .log10, a, a' => div true a' (mul true a (fn .log (const 10)))
  | .sin, a, a' => mul true (fn .cos a) a'
  | .sinh, a, a' => mul true (fn .cosh a) a'
  | .sqrt, a, a' => div true (div true a' (fn .sqrt a)) (const 2)
  | .tan, a, a' => div true a' (pow true (fn .cos a) (const 2))
  | .tanh, a, a' => div true a' (pow true (fn .cosh a) (const 2))

/-- The state of the differentiation: the derivative variables (`getGenericOpDerivative`), the option
`unknowVariablesAsConstants`, and the derivative of `time`: 1 for `createTimeDerivative` (lines
92-108), 0 for `createPartialDerivative` (77-91). -/
structure State where
  /-- the variable storing the derivative of a variable -/
  der : Nat → Option Nat
  /-- `unknowVariablesAsConstants` -/
  unknownAsConstants : Bool
  /-- derivative of `time` -/
  dTime : ℚ

/-- All the values of a finite function, or `none`. -/
def collect {α : Type} : (n : Nat) → (Fin n → Option α) → Option (Fin n → α)
  | 0, _ => some fun i => i.elim0
  | n + 1, f => do
    let a ← f 0
    let g ← collect n fun i => f i.succ
    some (Fin.cases a g)

/-- `createDerivative`: lines 846-899 (variables), 1109-1170 (constants), 1202-1223 (negation),
1264-1289, 1330-1355 (sum), 1396-1421, 1462-1487 (difference), 1528-1559, 1600-1631 (product),
1672-1718 (quotient), 1759-1805 (element-wise quotient; the operation creating the denominator, line
1797, lacks the base), 1845-1916 (power), 1956-2000 (element-wise power), 2028-2111 (reduction),
2357-2405 (atan2). The difference of line 1872 is folded. -/
def derive (st : State) : Expr → Option Expr
  | var n => match st.der n with
    | some m => some (var m)
    | none => if st.unknownAsConstants then some (const 0) else none
  | time => some (const st.dTime)
  | const _ => some (const 0)
  | neg a => do
    let a' ← derive st a
    some (neg a')
  | add ew a b => do
    let a' ← derive st a
    let b' ← derive st b
    some (add ew a' b')
  | sub ew a b => do
    let a' ← derive st a
    let b' ← derive st b
    some (sub ew a' b')
  | mul ew a b => do
    let a' ← derive st a
    let b' ← derive st b
    some (add ew (mul ew a' b) (mul ew a b'))
  | div ew a b => do
    let a' ← derive st a
    let b' ← derive st b
    let den := if ew then malformed (const 2) else pow false b (const 2)
    some (div ew (sub ew (mul ew a' b) (mul ew a b')) den)
  | pow false a b => do
    let a' ← derive st a
    let b' ← derive st b
    match b with
    | const c => some (mul false (mul false (pow false a (const (c - 1))) a') (const c))
    | b => some (mul false (pow false a (sub false b (const 1)))
        (add false (mul false b a') (mul false (mul false a (fn .log a)) b')))
  | pow true a b => do
    let a' ← derive st a
    let b' ← derive st b
    some (mul true (pow true a b)
      (add true (mul true b' (fn .log a)) (div true (mul true b a') a)))
  | atan2 y x => do
    let y' ← derive st y
    let x' ← derive st x
    some (div true (sub true (mul true y' x) (mul true y x'))
      (add true (mul true y y) (mul true x x)))
  | fn f a => do
    let a' ← derive st a
    some (dFn f a a')
  | sum n body => (collect n fun i => derive st (body i)).map (sum n)
  | malformed _ => none
  | other => none

end Expr
end Marco.Derivatives
