/-!
# Model of the lowering of statements (`/repo/lib/Codegen/Lowering/*StatementLowerer.cpp`)

Algorithms become operations of the dialect that work on variables. Variables are scalars with integer values, and
so are the values of expressions, in which any operator may occur; a condition holds if it is not 0. A statement
`(a, b) := f(x)`, subscripts on the left-hand side and `when` are left out. The lowered expressions are trees over
the variables that are read (`VariableGetOp`) and the iteration variables (SSA values). Operations after a
terminator, which the verifier of the dialect rejects, are not executed.
-/

namespace Marco.Stmts

/-- Expressions of the syntax tree. -/
inductive Ex where
  | const (n : Int)
  | var (x : String)
  | op (f : Int → Int → Int) (a b : Ex)

/-- include/marco/AST/BaseModelica/ForIndex.h: an iteration variable with the arguments of its range, in the order
of the source (lib/Parser/BaseModelica/Parser.cpp:1068-1093): `first : second` or `first : second : third`. -/
structure Index where
  name : String
  first : Ex
  second : Ex
  third : Option Ex

/-- A statement, a list of statements, and what follows the first branch of an `if`. -/
inductive Kind where
  | stmt | block | elses

/-- include/marco/AST/BaseModelica: `AssignmentStatement`, `IfStatement`, `ForStatement`, `WhileStatement`,
`BreakStatement`, `ReturnStatement`, and blocks of statements. -/
inductive Src : Kind → Type where
  | assign (x : String) (e : Ex) : Src .stmt
  | ifs (c : Ex) (body : Src .block) (rest : Src .elses) : Src .stmt
  | fors (is : List Index) (body : Src .block) : Src .stmt
  | whiles (c : Ex) (body : Src .block) : Src .stmt
  | brk : Src .stmt
  | ret : Src .stmt
  | nil : Src .block
  | cons (s : Src .stmt) (b : Src .block) : Src .block
  | noElse : Src .elses
  | els (b : Src .block) : Src .elses
  | elseIf (c : Ex) (body : Src .block) (rest : Src .elses) : Src .elses

/-- Values of the dialect. -/
inductive IrEx where
  | const (n : Int)
  /-- `VariableGetOp` -/
  | get (x : String)
  /-- the SSA value of an iteration variable -/
  | ind (x : String)
  | op (f : Int → Int → Int) (a b : IrEx)

/-- Operations of the dialect (include/marco/Dialect/BaseModelica/IR/Ops.td). A `ForOp` comes with the memory cell of
its iteration variable: the value that is stored in it before the loop, the limit that the condition region
compares it with, and the value that the step region adds to it. -/
inductive IrSt where
  | skip
  /-- a region without blocks -/
  | noRegion
  | seq (a b : IrSt)
  | set (x : String) (e : IrEx)
  | ifOp (c : IrEx) (a b : IrSt)
  | forOp (x : String) (lower upper step : IrEx) (body : IrSt)
  | whileOp (c : IrEx) (body : IrSt)
  | breakOp
  | returnOp

/-- The outcome of a lowering: a diagnostic has been reported, or undefined behaviour (`llvm_unreachable`). -/
inductive Low (α : Type) where
  | ok (a : α)
  | error
  | ub

instance : Monad Low where
  pure := .ok
  bind x f := match x with
    | .ok a => f a
    | .error => .error
    | .ub => .ub

/-- lib/Codegen/Lowering/ScopedSymbolTable.cpp: the iteration variables in scope, and the declared variables. -/
structure Scope where
  inds : List String
  vars : List String

/-- ComponentReferenceLowerer.cpp:11-34 with `lookupVariable`, for a simple name: an iteration variable hides a
variable; an undeclared name is an error. -/
def lowerVar (Γ : Scope) (x : String) : Low IrEx :=
  if x ∈ Γ.inds then .ok (.ind x) else if x ∈ Γ.vars then .ok (.get x) else .error

/-- The lowering of expressions (see `Verif/Model/OperationLowerer.lean`). -/
def lowerEx (Γ : Scope) : Ex → Low IrEx
  | .const n => .ok (.const n)
  | .var x => lowerVar Γ x
  | .op f a b => do
    let a ← lowerEx Γ a
    let b ← lowerEx Γ b
    pure (.op f a b)

/-- AssignmentStatementLowerer.cpp:74-86: a variable is set; an iteration variable cannot be set
(Reference.cpp:52-55). -/
def lowerAssign (Γ : Scope) (x : String) (e : IrEx) : Low IrSt :=
  if x ∈ Γ.inds then .ub else if x ∈ Γ.vars then .ok (.set x e) else .error

/-- ForStatementLowerer.cpp:17-146, one round of the loop on the indices, given the lowered body: argument 0 is the
first value (39-51), argument 1 the limit (74-88), and argument 2, if present, the step (128-141). -/
def lowerIndex (Γ : Scope) (i : Index) (body : Low IrSt) : Low IrSt := do
  let lower ← lowerEx Γ i.first
  let upper ← lowerEx Γ i.second
  let body ← body
  let step ← match i.third with
    | some e => lowerEx Γ e
    | none => pure (.const 1)
  pure (.forOp i.name lower upper step body)

/-- ForStatementLowerer.cpp:11-149: the guard of line 54 puts the insertion point after the loop at the end of each
round, so the loops of the indices follow each other, each one with the whole body, in which only the iteration
variable of that loop is defined. -/
def lowerIndices (Γ : Scope) (body : Scope → Low IrSt) : List Index → Low IrSt
  | [] => .ok .skip
  | i :: is => do
    let l ← lowerIndex Γ i (body { Γ with inds := i.name :: Γ.inds })
    let r ← lowerIndices Γ body is
    pure (.seq l r)

/-- StatementLowerer.cpp:10-43 and the lowerers of each statement: AssignmentStatementLowerer.cpp:11-37,
IfStatementLowerer.cpp:11-67 (the conditions of the `elseif` branches are evaluated in the `else` region of the
previous operation; without a branch that follows there is no `else` region), ForStatementLowerer.cpp,
WhileStatementLowerer.cpp:11-62, BreakStatementLowerer.cpp:11-15,
ReturnStatementLowerer.cpp:11-15; blocks: IfStatementLowerer.cpp:81-89. -/
def lower (Γ : Scope) : {k : Kind} → Src k → Low IrSt
  | _, .assign x e => do
    let e ← lowerEx Γ e
    lowerAssign Γ x e
  | _, .ifs c body rest => do
    let c ← lowerEx Γ c
    let b ← lower Γ body
    let r ← lower Γ rest
    pure (.ifOp c b r)
  | _, .fors is body => lowerIndices Γ (fun Δ => lower Δ body) is
  | _, .whiles c body => do
    let c ← lowerEx Γ c
    let b ← lower Γ body
    pure (.whileOp c b)
  | _, .brk => .ok .breakOp
  | _, .ret => .ok .returnOp
  | _, .nil => .ok .skip
  | _, .cons s b => do
    let s ← lower Γ s
    let b ← lower Γ b
    pure (.seq s b)
  | _, .noElse => .ok .noRegion
  | _, .els b => lower Γ b
  | _, .elseIf c body rest => do
    let c ← lowerEx Γ c
    let b ← lower Γ body
    let r ← lower Γ rest
    pure (.ifOp c b r)

end Marco.Stmts
