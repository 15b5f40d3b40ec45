import Verif.Model.ArrayMemory

/-!
# What the elements of arrays, of views and of array constructors are
-/

namespace Marco.Spec.ArrMem
open Marco.ArrMem

/-- The indices are within the sizes. -/
def Within (sizes : List Int) (idx : List Int) : Prop :=
  idx.length = sizes.length ∧ ∀ (k : Nat) i n, idx[k]? = some i → sizes[k]? = some n → 0 ≤ i ∧ i < n

/-- The position of an element in the list of the elements by rows: the last index changes first. -/
def position : List Nat → List Nat → Nat
  | _ :: ds, i :: is => i * ds.prod + position ds is
  | _, _ => 0

/-- The element of the source that an element of a view is: an index chooses one element, a range chooses by its steps, the
dimensions without a subscript are taken as they are. -/
def select : List Sub → List Int → List Int
  | [], idx => idx
  | .index i :: subs, idx => i :: select subs idx
  | .range _ b _ s :: subs, i :: idx => (b + i * s) :: select subs idx
  | .range .. :: _, [] => []

/-- The sizes of a view: a range begins with its begin and does not pass its end. -/
def sizes : List Sub → List Int → List Int
  | [], ns => ns
  | .index _ :: subs, _ :: ns => sizes subs ns
  | .range _ b e s :: subs, _ :: ns => (Int.toNat ((e - b).fdiv s + 1) : Int) :: sizes subs ns
  | _ :: _, [] => []

/-- A range that is not empty. -/
def Proper : Sub → Prop
  | .index _ => True
  | .range _ b e s => (0 < s ∧ b ≤ e) ∨ (s < 0 ∧ e ≤ b)

/-- The static shape tells the sizes. -/
def Agrees (shape : List (Option Nat)) (ns : List Int) : Prop :=
  shape.length = ns.length ∧ ∀ (k : Nat) (c : Nat) n, shape[k]? = some (some c) → ns[k]? = some n → n = c

end Marco.Spec.ArrMem
