import Verif.Model.Sparsity
import Verif.Spec.EquationAccesses
import Verif.Spec.IndexSet

/-!
# Specification of the accesses given to the solvers
-/

namespace Marco.Spec.Sparsity
open Marco Marco.EqAcc Marco.Sparsity

/-- The iterations of an equation: the points of its space; a scalar equation has one, the empty point. -/
def Iteration (t : Template) (space : IndexSet) (p : Point) : Prop :=
  if t.inds = [] then p = [] else Has space p

/-- The space has the rank of the equation, none if it is scalar. -/
def SpaceOk (t : Template) (space : IndexSet) : Prop :=
  if t.inds = [] then space = IndexSet.empty else SetOk t.inds.length space

/-- Scalar equations and scalar variables have one dimension with the index zero for the solvers. -/
def padded (p : Point) : Point := if p = [] then [0] else p

/-- The variable of IDA for a variable: the state if it is the derivative of one. -/
def Target (s : Solver) (v w : Nat) : Prop := s.derived v = some w ∨ (s.derived v = none ∧ w = v)

/-- One of the access functions for the variable leads from the iteration to the element. -/
def Told (maps : List (Nat × AffineMap)) (w : Nat) (p x : Point) : Prop :=
  ∃ m, (w, m) ∈ maps ∧ accessFunction m (padded p) = some (padded x)

/-- The dividends of the expression are not negative at the point. -/
def DividendsOk : AExpr → Point → Prop
  | .const _, _ => True
  | .dim _, _ => True
  | .add a b, p => DividendsOk a p ∧ DividendsOk b p
  | .mul a b, p => DividendsOk a p ∧ DividendsOk b p
  | .floorDiv a b, p => DividendsOk a p ∧ DividendsOk b p ∧ ∀ x, a.eval p = some x → 0 ≤ x

end Marco.Spec.Sparsity
