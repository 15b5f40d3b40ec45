import Verif.Model.RungeKutta
import Verif.Spec.RungeKutta

/-!
# The differential equations of a model, the order of computation

What the step of a Runge-Kutta method has to satisfy, by the equations of the model only.
-/

namespace Marco.Spec.RK
open Marco.RK

/-- The equation belongs to the model. -/
def Has {K : Type} (m : Model K) (e : Equation K) : Prop := ∃ c ∈ m.sccs, e ∈ c.equations

/-- The variable is a state. -/
def State {K : Type} (m : Model K) (s : String) : Prop := ∃ d, (s, d) ∈ m.derivatives

/-- The elements of the states. -/
def Elem {K : Type} (m : Model K) (x : String × Point) : Prop :=
  State m x.1 ∧ ∃ qs, (x.1, qs) ∈ m.vars ∧ x.2 ∈ qs

/-- The values `ρ` solve all the equations of the model at time `t`, with the given values of the
parameters, that is of the variables that are neither states nor computed by equations. -/
def Solves {K : Type} (m : Model K) (par : String → Point → K) (t : K) (ρ : String → Point → K) :
    Prop :=
  (∀ e, Has m e → ∀ p ∈ e.indices, ρ e.matched (e.access p) = e.rhs.eval ρ t p) ∧
    ∀ v, ¬ State m v → (∀ e, Has m e → e.matched ≠ v) → ρ v = par v

/-- The model is the differential equation `x' = f (t, x)` for the elements of the states: `f (t, x)`
are the values of the derivatives in a solution of the equations. -/
def IsField {K : Type} [Zero K] (m : Model K) (par : String → Point → K)
    (f : K → (String × Point → K) → (String × Point → K)) : Prop :=
  (∀ t x, ∃ ρ, Solves m par t ρ ∧
    ∀ s d, (s, d) ∈ m.derivatives → ∀ q, Elem m (s, q) → ρ s q = x (s, q) ∧ f t x (s, q) = ρ d q) ∧
  ∀ t x e, ¬ Elem m e → f t x e = 0

open Classical in
/-- The elements of the states, as a vector. -/
noncomputable def vec {K : Type} [Zero K] (m : Model K) (a : String → Point → K) :
    String × Point → K := fun e => if Elem m e then a e.1 e.2 else 0

/-- The equations are all computed, at all their points, each after the equations that compute
what it is seen to read. -/
structure Admissible {K : Type} (gens : List (Gen K)) (l : List (Gen K × Point)) : Prop where
  all : l.Perm (gens.flatMap fun g => g.indices.map fun p => (g, p))
  order : ∀ l₁ w l₂, l = l₁ ++ w :: l₂ → ∀ r ∈ w.1.reads, ∀ w' ∈ w :: l₂, w'.1.target = r.1 →
    (r.2 = none ∨ ∃ acc, r.2 = some acc ∧ acc w.2 = w'.1.access w'.2) → False

/-- The maps are maps, the states are variables, no derivative is a state, each element of a state
has exactly one equation for its derivative; a component that is not a cycle has one equation
(asserted by the code, RungeKutta.cpp:873). -/
structure WellFormed {K : Type} (m : Model K) : Prop where
  states : (m.derivatives.map (·.1)).Nodup
  derivatives : (m.derivatives.map (·.2)).Nodup
  declared : ∀ s, State m s → ∃ qs, (s, qs) ∈ m.vars
  names : (m.vars.map (·.1)).Nodup
  noChain : ∀ s d, (s, d) ∈ m.derivatives → ¬ State m d
  single : ∀ c ∈ m.sccs, c.cycle = false → c.equations.length = 1
  once : ∀ e e', Has m e → Has m e' → e.matched = e'.matched → ∀ p ∈ e.indices, ∀ p' ∈ e'.indices,
    e.access p = e'.access p' → e = e' ∧ p = p'
  matched : ∀ s d, (s, d) ∈ m.derivatives → ∀ q, Elem m (s, q) →
    ∃ e, Has m e ∧ e.matched = d ∧ ∃ p ∈ e.indices, e.access p = q
  within : ∀ s d, (s, d) ∈ m.derivatives → ∀ e, Has m e → e.matched = d → ∀ p ∈ e.indices,
    Elem m (s, e.access p)

/-- The equations of the derivatives read, of what is computed, only the element of the state whose
derivative they give. -/
def Decoupled {K : Type} (m : Model K) : Prop :=
  ∀ s d, (s, d) ∈ m.derivatives → ∀ e, Has m e → e.matched = d → ∀ r ∈ e.rhs.reads,
    (r.1 = s ∧ ∀ p ∈ e.indices, r.2 p = e.access p) ∨
      (¬ State m r.1 ∧ (∀ s', (s', r.1) ∉ m.derivatives) ∧ ∀ e', Has m e' → e'.matched ≠ r.1)

end Marco.Spec.RK
