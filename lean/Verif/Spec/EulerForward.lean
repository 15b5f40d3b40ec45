import Verif.Model.EulerForward

/-! # The forward Euler method: what the update of the states has to do -/

namespace Marco.Spec.Euler
open Marco.Euler

/-- The point is an element of an array of the shape (of a scalar, for the empty shape). -/
def InShape (q : Point) (shape : List ℕ) : Prop :=
  List.Forall₂ (fun (x : ℤ) (n : ℕ) => 0 ≤ x ∧ x < n) q shape

/-- The element belongs to a state, whose derivative is `d`. -/
def StateElem (m : Model) (s d : String) (q : Point) : Prop :=
  (s, d) ∈ m.derivatives ∧ ∃ sh, (s, sh) ∈ m.vars ∧ InShape q sh

/-- One step of the method: each element of a state is increased by the step times its derivative
before the step, the rest stays. -/
def IsStep {K : Type} [Field K] (m : Model) (h : K) (σ σ' : Env K) : Prop :=
  (∀ s d q, StateElem m s d q → σ' s q = σ s q + h * σ d q) ∧
    ∀ v q, (∀ d, ¬ StateElem m v d q) → σ' v q = σ v q

/-- Names are unique, a state has one derivative, which is declared with the shape of the state,
dimensions are positive, and no variable is its own derivative of some order. -/
structure WellFormed (m : Model) : Prop where
  names : (m.vars.map (·.1)).Nodup
  states : (m.derivatives.map (·.1)).Nodup
  declared : ∀ s d, (s, d) ∈ m.derivatives → ∃ sh, (s, sh) ∈ m.vars ∧ (d, sh) ∈ m.vars
  positive : ∀ v ∈ m.vars, ∀ n ∈ v.2, 0 < n
  acyclic : ∃ rank : String → ℕ, ∀ s d, (s, d) ∈ m.derivatives → rank d < rank s

/-- No derivative is a state. -/
def NoChain (m : Model) : Prop :=
  ∀ s d, (s, d) ∈ m.derivatives → ∀ e, (d, e) ∉ m.derivatives

end Marco.Spec.Euler
