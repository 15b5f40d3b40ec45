import Verif.Model.FunctionDerivative
import Verif.Spec.Derivative
import Mathlib.Logic.Function.Basic

/-!
# Meaning of functions, and their partial derivatives

The variables that are not inputs and have not been assigned have any value: a call has a result if the result is the same
for all these values.
-/

namespace Marco.Spec.FnDer
open Marco.Derivatives Marco.FnDer Classical Filter Topology

/-- The values of the variables. -/
abbrev Mem := Nat → ℝ

/-- How the execution of a statement ends. -/
inductive Out where
  | normal
  | brk
  | ret
  deriving DecidableEq

/-- The value of a condition; all its operands are evaluated. -/
noncomputable def evCond (m : Mem) : Cond → Option Bool
  | .cmp o a b => (ev m 0 a).bind fun x => (ev m 0 b).bind fun y => some (match o with
    | .lt => decide (x < y)
    | .le => decide (x ≤ y)
    | .eq => decide (x = y))
  | .not c => (evCond m c).map (!·)
  | .and c d => (evCond m c).bind fun x => (evCond m d).map fun y => x && y
  | .or c d => (evCond m c).bind fun x => (evCond m d).map fun y => x || y

/-- Assignments, with the values of the expressions in `r`. -/
noncomputable def store (r : Mem) : List (Nat × Expr) → Mem → Option Mem
  | [], w => some w
  | (n, e) :: l, w => (ev r 0 e).bind fun x => store r l (Function.update w n x)

/-- The execution of a statement. -/
inductive Run : Stmt → Mem → Out → Mem → Prop
  | skip (m) : Run .skip m .normal m
  | assign {l m m'} : store m l m = some m' → Run (.assign l) m .normal m'
  | seq {a b m m1 o m2} : Run a m .normal m1 → Run b m1 o m2 → Run (.seq a b) m o m2
  | seqStop {a b m o m1} : Run a m o m1 → o ≠ .normal → Run (.seq a b) m o m1
  | iteT {c a b m o m'} : evCond m c = some true → Run a m o m' → Run (.ite c a b) m o m'
  | iteF {c a b m o m'} : evCond m c = some false → Run b m o m' → Run (.ite c a b) m o m'
  | whileF {c a m} : evCond m c = some false → Run (.whileOp c a) m .normal m
  | whileT {c a m m1 o m2} : evCond m c = some true → Run a m .normal m1 → Run (.whileOp c a) m1 o m2 →
      Run (.whileOp c a) m o m2
  | whileBrk {c a m m1} : evCond m c = some true → Run a m .brk m1 → Run (.whileOp c a) m .normal m1
  | whileRet {c a m m1} : evCond m c = some true → Run a m .ret m1 → Run (.whileOp c a) m .ret m1
  | brk (m) : Run .brk m .brk m
  | ret (m) : Run .ret m .ret m

/-- The default values are assigned before the algorithms. -/
def entry (f : Fun) : Stmt := f.defaults.foldr (fun d s => .seq (.assign [d]) s) f.body

/-- The positions of the variables with a given property. -/
def positions (f : Fun) (io : Io) : List Nat :=
  (List.range f.vars.length).filter fun k => f.vars[k]? = some io

/-- A call with the arguments `xs` gives the results `ys`. -/
def Call (f : Fun) (xs ys : List ℝ) : Prop :=
  ∀ m : Mem, (positions f .input).map m = xs →
    ∃ o m', Run (entry f) m o m' ∧ (positions f .output).map m' = ys

/-- Both sides of each comparison are `P`, and different. -/
def CondReg (P : Mem → Expr → Prop) (m : Mem) : Cond → Prop
  | .cmp _ a b => P m a ∧ P m b ∧ ∀ x y, ev m 0 a = some x → ev m 0 b = some y → x ≠ y
  | .not c => CondReg P m c
  | .and c d => CondReg P m c ∧ CondReg P m d
  | .or c d => CondReg P m c ∧ CondReg P m d

/-- An execution in which all the expressions that are met are `P`, and no condition is about to change. -/
inductive Reg (P : Mem → Expr → Prop) : Stmt → Mem → Out → Mem → Prop
  | skip (m) : Reg P .skip m .normal m
  | assign {l m m'} : (∀ d ∈ l, P m d.2) → store m l m = some m' → Reg P (.assign l) m .normal m'
  | seq {a b m m1 o m2} : Reg P a m .normal m1 → Reg P b m1 o m2 → Reg P (.seq a b) m o m2
  | seqStop {a b m o m1} : Reg P a m o m1 → o ≠ .normal → Reg P (.seq a b) m o m1
  | iteT {c a b m o m'} : CondReg P m c → evCond m c = some true → Reg P a m o m' → Reg P (.ite c a b) m o m'
  | iteF {c a b m o m'} : CondReg P m c → evCond m c = some false → Reg P b m o m' → Reg P (.ite c a b) m o m'
  | whileF {c a m} : CondReg P m c → evCond m c = some false → Reg P (.whileOp c a) m .normal m
  | whileT {c a m m1 o m2} : CondReg P m c → evCond m c = some true → Reg P a m .normal m1 →
      Reg P (.whileOp c a) m1 o m2 → Reg P (.whileOp c a) m o m2
  | whileBrk {c a m m1} : CondReg P m c → evCond m c = some true → Reg P a m .brk m1 →
      Reg P (.whileOp c a) m .normal m1
  | whileRet {c a m m1} : CondReg P m c → evCond m c = some true → Reg P a m .ret m1 →
      Reg P (.whileOp c a) m .ret m1
  | brk (m) : Reg P .brk m .brk m
  | ret (m) : Reg P .ret m .ret m

/-- The function is differentiable at the arguments `xs`, operation by operation. -/
def RegularAt (P : Mem → Expr → Prop) (f : Fun) (xs : List ℝ) : Prop :=
  ∀ m : Mem, (positions f .input).map m = xs → ∃ o m', Reg P (entry f) m o m'

/-- All the variables of an expression are in `U`. -/
def Uses (U : Nat → Prop) : Expr → Prop
  | .var n => U n
  | .neg a => Uses U a
  | .add _ a b => Uses U a ∧ Uses U b
  | .sub _ a b => Uses U a ∧ Uses U b
  | .mul _ a b => Uses U a ∧ Uses U b
  | .div _ a b => Uses U a ∧ Uses U b
  | .pow _ a b => Uses U a ∧ Uses U b
  | .atan2 a b => Uses U a ∧ Uses U b
  | .fn _ a => Uses U a
  | .sum _ body => ∀ i, Uses U (body i)
  | .malformed a => Uses U a
  | _ => True

/-- The same for a condition. -/
def UsesC (U : Nat → Prop) : Cond → Prop
  | .cmp _ a b => Uses U a ∧ Uses U b
  | .not c => UsesC U c
  | .and c d => UsesC U c ∧ UsesC U d
  | .or c d => UsesC U c ∧ UsesC U d

/-- The same for a statement. -/
def UsesS (U : Nat → Prop) : Stmt → Prop
  | .assign l => ∀ d ∈ l, U d.1 ∧ Uses U d.2
  | .seq a b => UsesS U a ∧ UsesS U b
  | .ite c a b => UsesC U c ∧ UsesS U a ∧ UsesS U b
  | .whileOp c a => UsesC U c ∧ UsesS U a
  | _ => True

/-- The variables in the statements are those of the function. -/
def WellFormed (f : Fun) : Prop :=
  UsesS (· < f.vars.length) f.body ∧
    ∀ d ∈ f.defaults, d.1 < f.vars.length ∧ Uses (· < f.vars.length) d.2

/-- Along a curve, the lists of numbers `Y` have the derivative `ds` at `t`. -/
def DerivList (Y : ℝ → List ℝ) (ds : List ℝ) (t : ℝ) : Prop :=
  (∀ᶠ s in 𝓝 t, (Y s).length = ds.length) ∧
    ∀ j : Nat, HasDerivAt (fun s => (Y s).getD j 0) (ds.getD j 0) t

/-- The partial derivative of a function with respect to its `i`-th input: the function is defined around the arguments,
and its results have the derivatives `ds`. -/
def PartialDerivative (f : Fun) (xs : List ℝ) (i : Nat) (ds : List ℝ) : Prop :=
  ∃ Y : ℝ → List ℝ, (∀ᶠ s in 𝓝 (xs.getD i 0), Call f (xs.set i s) (Y s)) ∧ DerivList Y ds (xs.getD i 0)

end Marco.Spec.FnDer
