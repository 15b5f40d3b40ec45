import Verif.Spec.AccessFunction

/-!
# Specification of the accesses replaced by substitution
-/

namespace Marco
namespace Spec

/-- The dimension accesses, all affine, lead from the iteration `p` to the element `r`. -/
def Reaches (as : List DimAccess) (p r : Point) : Prop :=
  List.Forall₂ (fun a v => ∃ e, a.affineExpr = some e ∧ e.eval p = some v) as r

/-- The dimension accesses are affine expressions, without divisions, of `n` induction
variables. -/
def PlainAccess (n : Nat) (as : List DimAccess) : Prop :=
  ∀ a ∈ as, ∃ e, a.affineExpr = some e ∧ e.NoDiv ∧ e.Below n

/-- The induction variable of an access of the form `i` or `i + c`. -/
def varOf : DimAccess → Option Nat
  | .dim d => some d
  | .add (.dim d) (.const _) => some d
  | _ => none

/-- Every dimension access is a constant, or one of the `n` induction variables, or the sum of one
of them and a constant, and every induction variable is found once. -/
structure OffsetAccess (n : Nat) (as : List DimAccess) : Prop where
  form : ∀ a ∈ as, (∃ c, a = .const c) ∨ ∃ d, varOf a = some d
  once : (as.filterMap varOf).Perm (List.range n)

/-- A simplifier keeps the accesses of the form `c`, `i` and `i + c`. -/
def KeepsOffsets (S : Simplifier) : Prop :=
  ∀ n k e v c, Roto k e v c → Roto k (S.fn n e) v c

end Spec
end Marco
