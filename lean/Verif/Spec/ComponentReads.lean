import Verif.Model.ComponentReads

/-!
# What the elements of a component reference are
-/

namespace Marco.Spec.CompRead
open Marco.CompRead

/-- Whether the dimension remains. -/
def keeps : Sub → Bool
  | .index _ => false
  | _ => true

/-- The dimensions that remain of a component: one for each subscript that is not an index, and those without a subscript. -/
def free (c : Nat × List Sub) : Nat :=
  (c.2.filter keeps).length + (c.1 - c.2.length)

/-- The element of a component, counted from 0. The subscripts are for the first dimensions. -/
def choose : List Sub → List Int → List Int
  | [], idx => idx
  | .index i :: subs, idx => (i - 1) :: choose subs idx
  | .all :: subs, i :: idx => i :: choose subs idx
  | .range b s :: subs, i :: idx => (b - 1 + i * s) :: choose subs idx
  | _ :: _, [] => []

/-- The element of the variable: the dimensions of the reference are those that remain of the components, in their order. -/
def element : List (Nat × List Sub) → List Int → List (List Int)
  | [], _ => []
  | c :: rest, idx => choose c.2 (idx.take (free c)) :: element rest (idx.drop (free c))

end Marco.Spec.CompRead
