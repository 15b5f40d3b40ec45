import Verif.Model.Derivative

/-!
# Model of the partial derivatives of functions
(`/repo/lib/Dialect/BaseModelica/Transforms/AutomaticDifferentiation/ForwardAD.cpp`,
`/repo/lib/Dialect/BaseModelica/Transforms/AutomaticDifferentiation/AutomaticDifferentiation.cpp` and the statements of
`/repo/lib/Dialect/BaseModelica/Transforms/DerivableOpInterfaceImpl.cpp`)

`function g = der(f, x, ...)`: a template function, which gets the inputs of `f` and a seed for each of them, is created by
differentiating all the statements of `f`; `g` calls it with the seeds of the independent variables.

The variables are scalars of type Real and are identified with their positions in the function (ForwardAD.cpp:107-111 gives
names to the new ones; the names are modelled separately by `derivativeName`). The `for` statements and the calls of other
functions are left out.
-/

namespace Marco.FnDer
open Marco.Derivatives

/-- `LtOp`, `LteOp`, `EqOp`; the others exchange the operands or are negated. -/
inductive Cmp where
  | lt
  | le
  | eq
  deriving DecidableEq, Repr

/-- The conditions of `if` and `while`. -/
inductive Cond where
  | cmp (o : Cmp) (a b : Expr)
  | not (c : Cond)
  | and (c d : Cond)
  | or (c d : Cond)

/-- The statements of an algorithm. The operations of a right-hand side precede the `VariableSetOp`, also those that are
created for the derivatives (each is inserted after the operation it is the derivative of): the values are computed
before all the assignments of the list. -/
inductive Stmt where
  | skip
  /-- `VariableSetOp`s -/
  | assign (l : List (Nat × Expr))
  | seq (a b : Stmt)
  /-- `IfOp` -/
  | ite (c : Cond) (a b : Stmt)
  /-- `WhileOp` -/
  | whileOp (c : Cond) (a : Stmt)
  /-- `BreakOp` -/
  | brk
  /-- `ReturnOp` -/
  | ret

/-- `VariableSetOp`: DerivableOpInterfaceImpl.cpp:927-959. -/
def deriveSets (st : Expr.State) : List (Nat × Expr) → Option (List (Nat × Expr))
  | [] => some []
  | (n, e) :: l => do
    let m ← st.der n
    let e' ← Expr.derive st e
    let l' ← deriveSets st l
    some ((n, e) :: (m, e') :: l')

/-- The operations of one side of a comparison are differentiated too, unless they are not derivable:
DerivableOpInterfaceImpl.cpp:44-60. -/
def sideOk (st : Expr.State) : Expr → Bool
  | .other => true
  | e => (Expr.derive st e).isSome

/-- The operations of the condition of an `if` precede it. -/
def condOk (st : Expr.State) : Cond → Bool
  | .cmp _ a b => sideOk st a && sideOk st b
  | .not c => condOk st c
  | .and c d => condOk st c && condOk st d
  | .or c d => condOk st c && condOk st d

/-- `createPartialDerivative` of the statements: DerivableOpInterfaceImpl.cpp:44-60 (the operations of a region, in order),
3098-3115 (`IfOp`), 3179-3185 (`WhileOp`, the condition of which is not visited), 3377-3383 (`AlgorithmOp`). -/
def deriveStmt (st : Expr.State) : Stmt → Option Stmt
  | .skip => some .skip
  | .assign l => (deriveSets st l).map .assign
  | .seq a b => do
    let a' ← deriveStmt st a
    let b' ← deriveStmt st b
    some (.seq a' b')
  | .ite c a b =>
    if condOk st c then do
      let a' ← deriveStmt st a
      let b' ← deriveStmt st b
      some (.ite c a' b')
    else none
  | .whileOp c a => (deriveStmt st a).map (.whileOp c)
  | .brk => some .brk
  | .ret => some .ret

/-- `IOProperty`. -/
inductive Io where
  | input
  | output
  | none
  deriving DecidableEq, Repr

/-- A function: its variables in the order of their declarations, the default values (`DefaultOp`) of those that are
not inputs, in the order in which they are assigned, the algorithms. -/
structure Fun where
  vars : List Io
  defaults : List (Nat × Expr)
  body : Stmt

/-- The output variables of the function become protected: ForwardAD.cpp:92-96. -/
def demote : Io → Io
  | .output => .none
  | x => x

/-- The map of the derivatives for a function with `n` variables (ForwardAD.cpp:102-116, OpInterfaces.h:73-75 for the
option), and the derivative of `time` (DerivableOpInterfaceImpl.cpp:77-91). -/
def stateOf (n : Nat) : Expr.State :=
  ⟨fun k => if k < n then some (n + k) else none, false, 0⟩

/-- `createFunctionPartialDerivative`: ForwardAD.cpp:59-135. `DefaultOp` is not among the operations with a derivative
(DerivableOpInterfaceImpl.cpp:3393-3465): the default values are only cloned. -/
def partialDer (f : Fun) : Option Fun :=
  match deriveStmt (stateOf f.vars.length) f.body with
  | none => none
  | some b => some ⟨f.vars.map demote ++ f.vars, f.defaults, b⟩

/-- The template function of a given order: AutomaticDifferentiation.cpp:113-145. -/
def template (f : Fun) : Nat → Option Fun
  | 0 => some f
  | k + 1 => (template f k).bind partialDer

/-- The position stored for an independent variable, that among all the variables of the function; 0 where there is
none (the assertion of line 221 fails). AutomaticDifferentiation.cpp:202-209, 221-222. -/
def seedPos (f : Fun) (k : Nat) : Nat := if f.vars[k]? = some .input then k else 0

/-- The seeds for an independent variable: AutomaticDifferentiation.cpp:224-225. -/
def seedsFor (pos num : Nat) : List ℚ := (List.range num).map fun i => if i = pos then 1 else 0

/-- The seeds for all the independent variables: AutomaticDifferentiation.cpp:196-200, 216-290. -/
def seeds (f : Fun) : Nat → List Nat → List ℚ
  | _, [] => []
  | num, k :: ks => seedsFor (seedPos f k) num ++ seeds f (2 * num) ks

/-- `convertPartialDerFunction`: the template function, and the seeds that follow the inputs in its call.
AutomaticDifferentiation.cpp:98-298. -/
def convert (f : Fun) (indep : List Nat) : Option (Fun × List ℚ) :=
  (template f indep.length).map fun g => (g, seeds f (f.vars.count .input) indep)

/-- The name of the variable with the derivative of the `i`-th variable, which is called `name`, in a function with `n`
variables: ForwardAD.cpp:55-57, 104-111. -/
def derivativeName (n : Nat) (i : Nat) (name : String) : String := "pder_" ++ name ++ "_" ++ toString (n + i)

/-- The names of the variables of the template function. -/
def templateNames (names : List String) : List String :=
  names ++ names.mapIdx (derivativeName names.length)

end Marco.FnDer
