import Verif.Model.MatchedAccesses
import Verif.Spec.MatchingPass

/-!
# Specification of the accesses of matched equations
-/

namespace Marco.Spec.MatchPass
open Marco Matching MatchPass
variable {P : Type}

/-- The scalar variable an access uses in the scalar equation of index `p`. -/
def uses (e : Inst P) (a : Acc) (p : Point) : String × Point :=
  (a.var, if a.scalar then [] else a.fn (if e.inductions = 0 then [] else p))

/-- The scalar variable that is the index `q` of a variable of the graph. -/
def scalarVar (b : VBridge) (q : Point) : String × Point := (b.1, if b.2 = ∅ then [] else q)

/-- Accesses have as many subscripts as their variable has dimensions: they are without results exactly for scalars. -/
def AccsOk (accs : Nat → List Acc) (bs : List VBridge) (es : List (Inst P)) : Prop :=
  ∀ e ∈ es, ∀ a ∈ accs e.template, ∀ b ∈ bs, a.var = b.1 → (a.scalar ↔ b.2 = ∅)

/-- The access gives the matched scalar variable in each scalar equation. -/
def Along (e : Inst P) (b : VBridge) (s : Mat) (a : Acc) : Prop := ∀ p q, (p, q) ∈ s → uses e a p = scalarVar b q

end Marco.Spec.MatchPass
