import Verif.Spec.AccessFunction
import Verif.Spec.Image

/-!
# Specification vocabulary for loop nests
-/

namespace Marco
namespace Spec

/-- The integers of a range, in increasing order. -/
def intsOf (r : Range) : List Int := (List.range (r.e - r.b).toNat).map fun (i : Nat) => r.b + i

/-- The iterations of a nest of loops, outermost first, in the order in which they are executed;
`true` for a loop over increasing indices. -/
def nest : List (Range × Bool) → List Point
  | [] => [[]]
  | (r, f) :: ls => (if f then intsOf r else (intsOf r).reverse).flatMap fun x =>
      (nest ls).map (x :: ·)

/-- A well-formed affine read access of rank `k` in an equation of rank `n`, without divisions. -/
structure ReadOk (n k : Nat) (f : AccessFn) : Prop where
  ok : AffineOk f
  noDiv : ∀ e ∈ f.affineMap.results, e.NoDiv
  dims : f.dims = n
  results : f.numResults = k
  kind : (∃ m, f = .roto m ∧ RotoOk m) ∨ (∃ cs : List Int, f = .affConst ⟨n, cs.map .const⟩) ∨
    ∃ rs, f = .generic n rs

end Spec
end Marco
