import Verif.Model.IndexSet
import Verif.Spec.Tree

/-!
# Specification vocabulary for index sets
-/

namespace Marco
namespace Spec

/-- The point belongs to (one of the stored ranges of) the index set. -/
def Has (s : IndexSet) (p : Point) : Prop := InL p s.ranges

/-- One node of a well-formed spatial tree of rank `k`: it holds either children or objects, there
is some object below it, and its boundary is the minimum bounding box of these objects. -/
structure NodeTight (k : Nat) (n : Node) : Prop where
  bd : Ranked k n.bd
  excl : n.ch = [] ∨ n.obs = []
  obs : ∀ o ∈ n.obs, Ranked k o
  nonempty : n.objects ≠ []
  mbr : IsMBR n.bd n.objects

/-- A spatial tree with minimum bounding boxes. -/
def Tight (k : Nat) (n : Node) : Prop := AllNodes (NodeTight k) n

/-- A well-formed index set of rank `k`. The empty set has any rank. -/
structure SetOk (k : Nat) (s : IndexSet) : Prop where
  tight : ∀ n, s.root = some n → Tight k n
  rank : s.root.isSome → s.rank = k

/-- `n` is the number of points satisfying `P`. -/
def CountIs (P : Point → Prop) (n : Nat) : Prop :=
  ∃ l : List Point, l.Nodup ∧ (∀ p, p ∈ l ↔ P p) ∧ l.length = n

end Spec
end Marco
