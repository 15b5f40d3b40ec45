import Verif.Model.Range

/-!
# Specification vocabulary: the integers / points denoted by a range / box

These definitions do not refer to any operation of the model, only to the two bounds.
-/

namespace Marco

/-- A point of the index space (`/repo/include/marco/Modeling/Point.h`): its coordinates. -/
abbrev Point := List Int

/-- A box (`MultidimensionalRange`): one range per dimension. -/
abbrev Box := List Range

namespace Spec

/-- `x` is one of the integers denoted by the half-open range `[b, e)`. -/
def InR (x : Int) (r : Range) : Prop := r.b ≤ x ∧ x < r.e

/-- `p` is one of the points denoted by a box: same rank, each coordinate within its range. -/
def InB (p : Point) (b : Box) : Prop := List.Forall₂ (fun r x => InR x r) b p

/-- `p` is one of the points denoted by a list of boxes (union). -/
def InL (p : Point) (l : List Box) : Prop := ∃ b ∈ l, InB p b

/-- Two boxes share no point. -/
def Disj (a b : Box) : Prop := ∀ p, ¬ (InB p a ∧ InB p b)

/-- Pairwise disjointness of the boxes of a list (position-wise, so that a repeated
non-empty box is not disjoint from its copy). -/
def DisjL (l : List Box) : Prop := l.Pairwise Disj

/-- Lexicographic strict order on lists of integers of the same length. -/
def LexLt : List Int → List Int → Prop
  | a :: as, b :: bs => a < b ∨ (a = b ∧ LexLt as bs)
  | _, _ => False

instance (x : Int) (r : Range) : Decidable (InR x r) :=
  inferInstanceAs (Decidable (r.b ≤ x ∧ x < r.e))

end Spec
end Marco
