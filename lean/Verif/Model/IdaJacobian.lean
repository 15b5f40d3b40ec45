import Verif.Model.Derivative

/-!
# Model of the Jacobian functions for IDA
(`/repo/lib/Dialect/BaseModelica/Transforms/IDA.cpp`)

An equation at given indices: its two sides are expressions on the accesses, which are elements of variables of the model
(the subscripts are taken to be evaluated, the elements of a variable are numbered) and induction variables. For each
equation a function with the residual is differentiated (`createFunctionPartialDerivative`); the function created gets the
time, the indices, a seed for each independent variable and zeros as seeds of the indices. The Jacobian function of a
variable stores into the seeds, calls it, and restores the seeds.
-/

namespace Marco.IdaJac
open Marco.Derivatives

/-- A variable of the model. -/
structure Var where
  name : String
  readOnly : Bool
  deriving DecidableEq, Repr

/-- The variables, and the map of the derivatives in both directions. -/
structure Model where
  vars : List Var
  der : Nat → Option Nat
  derived : Nat → Option Nat

/-- `VariableGetOp` with its subscripts, or an induction variable. -/
inductive Leaf where
  | elem (v k : Nat)
  | ind (i : Nat)
  deriving DecidableEq, Repr

/-- An equation at given indices `inds`; the variable `n` of the expressions is the `n`-th access. -/
structure Eqn where
  acc : List Leaf
  inds : List ℤ
  lhs : Expr
  rhs : Expr

/-- The variables of the accesses. -/
def Eqn.accessed (q : Eqn) (v : Nat) : Bool := q.acc.any fun a => match a with
  | .elem w _ => w = v
  | .ind _ => false

/-- `isReadOnly` -/
def Model.readOnly (m : Model) (v : Nat) : Bool := match m.vars[v]? with
  | some x => x.readOnly
  | none => false

/-- `getIndependentVariablesForAD`: IDA.cpp:1202-1240. -/
def indep (m : Model) (q : Eqn) (v : Nat) : Bool :=
  let used := fun w => q.accessed w && !m.readOnly w
  used v ||
    (match m.derived v with | some w => used w | none => false) ||
    (match m.der v with | some w => used w | none => false)

/-- The independent variables in order: IDA.cpp:1316-1331. -/
def indeps (m : Model) (q : Eqn) : List Nat := (List.range m.vars.length).filter (indep m q)

/-- `getVariablePos`: IDA.cpp:1330, 1278-1280. -/
def pos (m : Model) (q : Eqn) (v : Nat) : Option Nat := (indeps m q).findIdx? (· = v)

/-- `SymbolTable::insert` of a variable: the name, or the name and a number if it is taken (the number is the first that is
free; in LLVM it is counted for the whole table). -/
def freshName (used : List String) (name : String) : Nat → Nat → String
  | 0, c => name ++ "_" ++ toString c
  | fuel + 1, c => if used.contains (name ++ "_" ++ toString c) then freshName used name fuel (c + 1)
    else name ++ "_" ++ toString c

/-- The same. -/
def insertName (used : List String) (name : String) : String :=
  if used.contains name then freshName used name used.length 0 else name

/-- The names of the induction variables of the function: IDA.cpp:1353-1365. -/
def indNames : Nat → Nat → List String → List String
  | 0, _, _ => []
  | n + 1, i, used =>
    let name := insertName used ("ind" ++ toString i)
    name :: indNames n (i + 1) (used ++ [name])

/-- The names of the independent variables. -/
def indepNames (m : Model) (q : Eqn) : List String := (indeps m q).filterMap fun v => m.vars[v]?.map Var.name

/-- The names of the induction variables. -/
def inductions (m : Model) (q : Eqn) : List String := indNames q.inds.length 0 (indepNames m q)

/-- The name of the output: IDA.cpp:1369-1375. -/
def outName (m : Model) (q : Eqn) : String := insertName (indepNames m q ++ inductions m q) "out"

/-- What an access of the function reads. -/
inductive Src where
  /-- an independent variable -/
  | indep (v k : Nat)
  /-- a variable of the model that is not independent (`QualifiedVariableGetOp`) -/
  | model (v k : Nat)
  /-- an induction variable -/
  | ind (i : Nat)
  /-- the output variable -/
  | out
  deriving DecidableEq, Repr

/-- The operations are cloned with the names of the variables; those that are names of local variables read these:
IDA.cpp:1431-1469. The variables of the model that are independent have their own names. -/
def source (m : Model) (q : Eqn) : Leaf → Src
  | .ind i => .ind i
  | .elem v k =>
    if indep m q v then .indep v k
    else match m.vars[v]? with
      | none => .model v k
      | some x =>
        match (inductions m q).findIdx? (· = x.name) with
        | some i => .ind i
        | none => if x.name = outName m q then .out else .model v k

/-- The derivatives of the local variables are the seeds (ForwardAD.cpp:102-116), those of the other variables are zero
(DerivableOpInterfaceImpl.cpp:980-1044), as is that of the time. The seed of the access `n` is the variable `N + n`. -/
def state (m : Model) (q : Eqn) : Expr.State where
  der := fun n => match q.acc[n]? with
    | some a => match source m q a with
      | .model _ _ => none
      | _ => some (q.acc.length + n)
    | none => none
  unknownAsConstants := true
  dTime := 0

/-- The residual: IDA.cpp:1174-1184, 1450-1456. -/
def residual (q : Eqn) : Expr := .sub false q.rhs q.lhs

/-- `createPartialDerTemplateFromEquation`: IDA.cpp:1285-1545; the value of the derivative of the output. -/
def template (m : Model) (q : Eqn) : Option Expr := Expr.derive (state m q) (residual q)

/-- The values stored in the seeds. -/
inductive Seed where
  | zero
  | one
  | alpha
  deriving DecidableEq, Repr

/-- The operations of a Jacobian function: a store in the element `k` of the seed at a position, or a call of the template
function. -/
inductive Instr where
  | store (x : Seed) (p k : Nat)
  | call
  deriving DecidableEq, Repr

/-- A Jacobian function: its operations, and whether the result is that of the first call, or the sum of it and of `alpha`
times that of the second one. -/
structure Jac where
  body : List Instr
  second : Bool
  deriving DecidableEq, Repr

/-- `createJacobianFunction` for the element `k` of the variable `v`: IDA.cpp:1547-1758. -/
def jacobian (m : Model) (q : Eqn) (oneSweep : Bool) (v k : Nat) : Jac :=
  let one := pos m q v
  let der := match m.der v with
    | some d => pos m q d
    | none => none
  let set := fun (x : Seed) (p : Option Nat) => match p with
    | some p => [Instr.store x p k]
    | none => []
  if oneSweep then ⟨set .one one ++ set .alpha der ++ [.call] ++ set .zero one ++ set .zero der, false⟩
  else match der with
    | some d => ⟨set .one one ++ [.call] ++ set .zero one ++ [.store .one d k, .call, .store .zero d k], true⟩
    | none => ⟨set .one one ++ [.call] ++ set .zero one, false⟩

/-- Whether the Jacobian function of an algebraic or state variable is created: IDA.cpp:882-885, 908-925. -/
def created (m : Model) (q : Eqn) (reduced : Bool) (v : Nat) : Bool :=
  !reduced || q.accessed v || match m.der v with
    | some d => q.accessed d
    | none => false

end Marco.IdaJac
