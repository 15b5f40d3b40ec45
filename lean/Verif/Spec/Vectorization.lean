import Verif.Model.Vectorization

/-!
# Vectorized calls (Modelica Language Specification, "Scalar Functions Applied to Array Arguments")
-/

namespace Marco.Spec
open Marco.Vect

/-- The leading dimensions of the argument are known to differ from those of the call in no place, and those that are
known are known for the call. -/
def Fits (d : List Dim) (a : Arg) : Prop :=
  a.shape.length = a.expected + d.length ∧ ∀ (i n : Nat), i < d.length → a.shape[i]? = some (some n) → d[i]? = some (some n)

/-- An argument that is not an array of what is expected: it is passed as it is. -/
def Whole (a : Arg) : Prop := a.shape.length = a.expected

/-- The call has the additional dimensions `d`: every argument is passed as it is or has these additional dimensions,
and what is known of `d` comes from an argument. -/
def CallDims (args : List Arg) (d : List Dim) : Prop :=
  (∀ a ∈ args, Whole a ∨ Fits d a) ∧
  (d ≠ [] → ∃ a ∈ args, ¬ Whole a) ∧
  ∀ (i n : Nat), d[i]? = some (some n) → ∃ a ∈ args, ¬ Whole a ∧ a.shape[i]? = some (some n)

end Marco.Spec
