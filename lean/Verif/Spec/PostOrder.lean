import Verif.Model.PostOrder
import Verif.Spec.DependencyGraph
import Mathlib.Logic.Relation

/-! # Orders that respect dependencies -/

namespace Marco.Spec
open Marco.PostOrder

/-- Nothing depends on itself, directly or not, through something else. -/
def AcyclicRel {α : Type} (R : α → α → Prop) : Prop :=
  ∀ x, ¬ Relation.TransGen (fun a b => R a b ∧ a ≠ b) x x

/-- `b` comes before `a` in the list. -/
def ComesBefore {α : Type} (l : List α) (b a : α) : Prop := ∃ l1 l2 l3, l = l1 ++ b :: l2 ++ a :: l3

/-- Component `i` has an element that depends on an element of component `j`. -/
def GroupDepends (sccs : List Scc) (i j : Nat) : Prop :=
  ∃ a b, sccs[i]? = some a ∧ sccs[j]? = some b ∧ ∃ x ∈ a, ∃ d ∈ x.2, ∃ y ∈ b, y.1 = d

/-- The components have no element in common, and contain all dependencies. -/
structure GroupsOk (sccs : List Scc) : Prop where
  disj : ∀ (i j : Nat) (a b : Scc), sccs[i]? = some a → sccs[j]? = some b →
    ∀ x ∈ a, ∀ y ∈ b, x.1 = y.1 → i = j
  deps : ∀ a ∈ sccs, ∀ x ∈ a, ∀ d ∈ x.2, ∃ b ∈ sccs, ∃ y ∈ b, y.1 = d

end Marco.Spec
