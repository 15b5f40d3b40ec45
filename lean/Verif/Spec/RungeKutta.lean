import Mathlib.Algebra.BigOperators.Fin
import Mathlib.Algebra.Module.Defs
import Mathlib.Data.Rat.Cast.Defs
import Mathlib.Data.Rat.Defs
import Mathlib.Data.Rat.BigOperators

/-!
# Runge-Kutta methods: order

The order of a Runge-Kutta method, by the conditions of Butcher (Hairer, Nørsett, Wanner, *Solving
Ordinary Differential Equations I*, II.2): one condition for each rooted tree. It has nothing to do
with the code.
-/

namespace Marco.Spec.RK

/-- Rooted trees. `dot` is the tree with one node; `graft t u` is `t` with one more edge from its
root to the root of `u`. Each rooted tree with ordered children is obtained in exactly one way. -/
inductive Tree where
  | dot
  | graft (t u : Tree)
  deriving DecidableEq, Repr

/-- The number of nodes. -/
def Tree.order : Tree → ℕ
  | dot => 1
  | graft t u => t.order + u.order

/-- The density: the number of nodes times the product of the densities of the subtrees of the
children of the root. In `graft t u` the number of nodes of `t` is replaced by that of the whole
tree, and `u` is one more subtree. -/
def Tree.density : Tree → ℚ
  | dot => 1
  | graft t u => t.density / t.order * (t.order + u.order) * u.density

/-- The stage weights of a tree: for each child of the root the coefficients of the row applied to
the stage weights of the subtree, multiplied. -/
def stageWeight {n : ℕ} (A : Fin n → Fin n → ℚ) : Tree → Fin n → ℚ
  | .dot, _ => 1
  | .graft t u, i => stageWeight A t i * ∑ j, A i j * stageWeight A u j

/-- The method with coefficients `A` and weights `b` has (at least) order `p`. -/
def HasOrder {n : ℕ} (A : Fin n → Fin n → ℚ) (b : Fin n → ℚ) (p : ℕ) : Prop :=
  ∀ t : Tree, t.order ≤ p → ∑ i, b i * stageWeight A t i = 1 / t.density

/-- The nodes are the sums of the rows. -/
def RowSums {n : ℕ} (A : Fin n → Fin n → ℚ) (c : Fin n → ℚ) : Prop := ∀ i, ∑ j, A i j = c i

/-- One step of size `h` of the method from the value `x` at time `t`, for the equation
`x' = f (t, x)`; the `k i` are the slopes of the stages. -/
def IsStep {K V : Type*} [Field K] [AddCommGroup V] [Module K V] {n : ℕ}
    (A : Fin n → Fin n → ℚ) (b c : Fin n → ℚ) (f : K → V → V) (t : K) (x : V) (h : K)
    (k : Fin n → V) (next : V) : Prop :=
  (∀ i, k i = f (t + (c i : K) * h) (x + h • ∑ j, (A i j : K) • k j)) ∧
    next = x + h • ∑ i, (b i : K) • k i

end Marco.Spec.RK
