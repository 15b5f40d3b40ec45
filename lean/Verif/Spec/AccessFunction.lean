import Verif.Model.AccessFunction
import Verif.Spec.Access

/-!
# Specification vocabulary for access functions
-/

namespace Marco
namespace Spec

/-- The access function maps the point `p` to the single point `q`. -/
def MapsTo (f : AccessFn) (p q : Point) : Prop :=
  ∃ s, f.mapPoint p = some s ∧ ∀ x, Has s x ↔ x = q

/-- A well-formed affine access function: it has results, and they only mention existing
dimensions. -/
structure AffineOk (f : AccessFn) : Prop where
  affine : f.isAffine = true
  nonempty : f.affineMap.results ≠ []
  below : ∀ e ∈ f.affineMap.results, e.Below f.dims

/-- A simplifier leaves plain dimensions alone and introduces no dimension. -/
structure Tidy (S : Simplifier) : Prop where
  dim : ∀ n d, S.fn n (.dim d) = .dim d
  below : ∀ n k e, e.Below k → (S.fn n e).Below k

/-- The results are affine expressions without division, or plain ranges, and there is some range
(for example `x[i + 1, 2:5]`). -/
structure SliceFn (h : AccessFn) : Prop where
  notAffine : h.isAffine = false
  results : ∀ a ∈ h.accesses, (∃ r : Range, a = .range r ∧ r.Valid) ∨
    ∃ e, a.affineExpr = some e ∧ e.NoDiv ∧ e.Below h.dims

/-- The expression `d + c` or `c` (offset/permutation access): `v` is the dimension, if any, and
`c` the offset. -/
inductive Roto (n : Nat) : AExpr → Option Nat → Int → Prop
  | dim {d : Nat} : d < n → Roto n (.dim d) (some d) 0
  | const (c : Int) : Roto n (.const c) none c
  | addR {d : Nat} (c : Int) : d < n → Roto n (.add (.dim d) (.const c)) (some d) c
  | addL {d : Nat} (c : Int) : d < n → Roto n (.add (.const c) (.dim d)) (some d) c

/-- A well-formed offset/permutation access (`AccessFunctionRotoTranslation::canBeBuilt`). -/
structure RotoOk (m : AffineMap) : Prop where
  dims : m.dims ≠ 0
  nonempty : m.results ≠ []
  form : ∀ e ∈ m.results, ∃ v c, Roto m.dims e v c

end Spec
end Marco
