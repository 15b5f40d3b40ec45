import Verif.Model.MatchingPass
import Verif.Spec.Matching

/-!
# Specification of the matching of a model
-/

namespace Marco.Spec.MatchPass
open Marco Matching MatchPass
variable {P : Type}

/-- The scalar equations of some instances: the template, the properties, and the values of the induction variables. -/
def scalarEqs (l : List (Inst P)) : Multiset (Nat × P × Point) :=
  (l.map fun e => (if e.inductions = 0 then {(e.template, e.props, [])} else
    e.indices.val.map fun p => (e.template, e.props, p) : Multiset (Nat × P × Point))).sum

/-- The unknowns of the main model: what is not read-only and not a state. Of the initial conditions: all the variables. -/
def unknown (ph : Phase) (v : Var) : Multiset (String × Point) :=
  if ph = .main ∧ v.readOnly then 0
  else if v.scalar then (if ph = .main ∧ v.derived.isSome then 0 else {(v.name, [])})
  else (boxPoints v.shape \ if ph = .main then v.derived.getD ∅ else ∅).val.map fun p => (v.name, p)

/-- The scalar variables some instances are matched with. -/
def matchedVars (l : List (Inst P)) : Multiset (String × Point) :=
  (l.map fun e => match e.matched with
    | none => (0 : Multiset (String × Point))
    | some (n, s) => if s = ∅ then {(n, [])} else s.val.map fun p => (n, p)).sum

/-- Equations with induction variables have indices, the others have none. -/
def EqsOk (l : List (Inst P)) : Prop := ∀ e ∈ l, (e.inductions = 0 ↔ e.indices = ∅)

/-- Arrays have elements (otherwise an assertion fails, Range.cpp:7). -/
def VarsOk (l : List Var) : Prop := ∀ v ∈ l, v.scalar = false → boxPoints v.shape ≠ ∅

/-- What the algorithm finds in the graph is a perfect matching (C30). -/
def AlgOk (alg : Graph → Option (Nat → Mat)) (G : Graph) : Prop := ∀ m, alg G = some m → Perfect G m

/-- The edges found connect indices of their ends. -/
def EdgesOk (bs : List VBridge) (es : List (Inst P)) (edges : List (Nat × Nat × Mat)) : Prop :=
  GraphOk (buildGraph bs es edges)

end Marco.Spec.MatchPass
