import Mathlib.Algebra.BigOperators.Group.Multiset.Basic
import Verif.Model.EquationSplit

/-!
# What splitting an equation has to preserve
-/

namespace Marco.Spec
open Marco Split

/-- The values of the induction variables for which there is a scalar equation: an equation without
induction variables stands for one scalar equation. -/
def eqPoints {β : Type} (op : Inst β) : Finset Point := if op.dims = 0 then {[]} else op.indices

/-- The indices have a coordinate for each induction variable, and there are none only if there are
no induction variables. -/
structure IndicesOk {β : Type} (op : Inst β) : Prop where
  none : op.dims = 0 → op.indices = ∅
  some : op.dims ≠ 0 → op.indices ≠ ∅
  rank : ∀ p ∈ op.indices, p.length = op.dims

/-- The scalar equations that a list of equations stands for, with repetitions. -/
def scalarEquations {β : Type} (ops : List (Inst β)) : Multiset β :=
  (ops.map fun op => (eqPoints op).val.map op.body).sum

/-- The matched variable is accessed through `w`, and each scalar equation is matched with the
element accessed by it, which is an element of its own. -/
structure MatchedBy {β : Type} (op : Inst β) (w : Point → Point) : Prop where
  access : ⟨op.matched, w⟩ ∈ op.accesses
  inj : Set.InjOn w (eqPoints op)
  elements : op.matchedIndices = (eqPoints op).image w

/-- An access to the matched variable, all of whose elements are matched. -/
def Inside {β : Type} (op : Inst β) (f : Point → Point) : Prop :=
  ⟨op.matched, f⟩ ∈ op.accesses ∧ ∀ p ∈ op.indices, f p ∈ op.matchedIndices

/-- The element is among those that the equation accesses through `f`. -/
def Hit {β : Type} (op : Inst β) (f : Point → Point) (u : Point) : Prop :=
  ∃ p ∈ op.indices, f p = u

/-- At `p` the equation accesses, through an access that also reaches the matched element of `p`, an
element that is told apart from this element by an access. -/
def Torn {β : Type} (op : Inst β) (w : Point → Point) (p : Point) : Prop :=
  ∃ f, Inside op f ∧ Hit op f (w p) ∧ ∃ g, Inside op g ∧ ¬ (Hit op g (w p) ↔ Hit op g (f p))

/-- The indices are stored as the given boxes: they are disjoint, and each has a nonempty range for
each induction variable. -/
structure StoredAs {β : Type} (op : Inst β) (ranges : List Box) : Prop where
  rank : ∀ b ∈ ranges, b.length = op.dims
  valid : ∀ b ∈ ranges, ∀ r ∈ b, r.b < r.e
  disj : ranges.Pairwise Disj
  cover : ∀ p, p ∈ op.indices ↔ ∃ b ∈ ranges, InB p b

/-- The point is in a box with other points. -/
def InMany (ranges : List Box) (p : Point) : Prop :=
  ∃ b ∈ ranges, InB p b ∧ ∃ x, InB x b ∧ x ≠ p

/-- The points stay in the same equation when the boxes with one point are separated. -/
def Together (ranges : List Box) (p p' : Point) : Prop :=
  p = p' ∨ (InMany ranges p ∧ InMany ranges p')

/-- The scalar equations that a list of equations stands for, each with the element it is matched
with, when the matched variable is accessed through the given functions. -/
def matchedEquations {β : Type} (w : Inst β → Point → Point) (ops : List (Inst β)) :
    Multiset (β × Point) :=
  (ops.map fun op => (eqPoints op).val.map fun p => (op.body p, w op p)).sum

/-- The ranges with one value come after the others. -/
def SinglesLast (r : Box) : Prop :=
  ∃ a c, r = a ++ c ∧ (∀ x ∈ a, x.e - x.b ≠ 1) ∧ ∀ x ∈ c, x.e - x.b = 1

end Marco.Spec
