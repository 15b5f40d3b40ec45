import Verif.Model.SCCDetection
import Verif.Spec.MatchedAccesses
import Verif.Spec.Cycles

/-!
# Specification of the components of a model
-/

namespace Marco.Spec.MatchPass
open Marco MatchPass
variable {P : Type}

/-- The values of the induction variables of an instance. -/
def points (e : Inst P) : Finset Point := if e.inductions = 0 then {[]} else e.indices

/-- Each scalar equation of the instance has a scalar variable of its own, given by each of its writes, and these variables
are those it is matched with. -/
def Ready (accs : List Acc) (e : Inst P) : Prop := ∃ n s, e.matched = some (n, s) ∧
  writeAccesses accs e ≠ [] ∧ (∀ a ∈ writeAccesses accs e, a.scalar ↔ s = ∅) ∧
  ∃ g : Point → String × Point, (∀ p ∈ points e, ∀ p' ∈ points e, g p = g p' → p = p') ∧
    (∀ a ∈ writeAccesses accs e, ∀ p ∈ points e, uses e a p = g p) ∧ matchedVars [e] = (points e).val.map g

/-- The indices have as many coordinates as there are induction variables. -/
def RankOk (l : List (Inst P)) : Prop := ∀ e ∈ l, ∀ p ∈ e.indices, p.length = e.inductions

/-- The scalar equations of the graph are those of the instance. -/
def SccClaim (es : List (Inst P)) (r : List (List (Inst P))) : Prop :=
  scalarEqs r.flatten = scalarEqs es ∧ matchedVars r.flatten = matchedVars es

end Marco.Spec.MatchPass
