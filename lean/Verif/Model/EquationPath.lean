/-!
# Model of the expression and equation paths
(`/repo/lib/Dialect/BaseModelica/IR/ExpressionPath.cpp`, `EquationPath.cpp`)

The indices (`uint64_t`) are natural numbers.
-/

namespace Marco

/-- ExpressionPath.h:22-51: the vector of the indices. -/
structure ExprPath where
  path : List Nat
deriving DecidableEq, Repr

namespace ExprPath

/-- ExpressionPath.cpp:23-25: comparison of the vectors (`llvm::SmallVectorImpl::operator==`: same
size and same elements). -/
def eq (a b : ExprPath) : Bool :=
  a.path.length == b.path.length && (a.path.zip b.path).all fun x => x.1 == x.2

/-- ExpressionPath.cpp:27-29. -/
def ne (a b : ExprPath) : Bool := !eq a b

/-- ExpressionPath.cpp:32-38: the loop over the common positions; `none` if it ends without a
decision. -/
def ltLoop : List (Nat × Nat) → Option Bool
  | [] => none
  | (l, r) :: rest => if l < r then some true else if l > r then some false else ltLoop rest

/-- ExpressionPath.cpp:31-45. -/
def lt (a b : ExprPath) : Bool :=
  match ltLoop (a.path.zip b.path) with
  | some r => r
  | none => if a.path.length < b.path.length then true else false

/-- ExpressionPath.cpp:47-50 (`none`: out of bounds). -/
def get (a : ExprPath) (i : Nat) : Option Nat := a.path[i]?

/-- ExpressionPath.cpp:62. -/
def append (a : ExprPath) (i : Nat) : ExprPath := ⟨a.path ++ [i]⟩

/-- ExpressionPath.cpp:11-15: the destructor of a guard that has recorded `size`. -/
def restore (a : ExprPath) (size : Nat) : ExprPath :=
  if a.path.length > size then ⟨a.path.take size⟩ else a

end ExprPath

/-- EquationPath.h:15. -/
inductive Side where
  | left
  | right
deriving DecidableEq, Repr

/-- EquationPath.h:47-49. -/
structure EqPath where
  side : Side
  expr : ExprPath
deriving DecidableEq, Repr

namespace EqPath

/-- EquationPath.cpp:22-25. -/
def eq (a b : EqPath) : Bool := decide (a.side = b.side) && a.expr.eq b.expr

/-- EquationPath.cpp:27-30. -/
def ne (a b : EqPath) : Bool := !decide (a.side = b.side) || a.expr.ne b.expr

/-- EquationPath.cpp:32-42. -/
def lt (a b : EqPath) : Bool :=
  if decide (a.side = .left) && decide (b.side = .right) then true
  else if decide (a.side = .right) && decide (b.side = .left) then false
  else a.expr.lt b.expr

/-- EquationPath.cpp:60-62. -/
def append (a : EqPath) (i : Nat) : EqPath := ⟨a.side, a.expr.append i⟩

end EqPath
end Marco
