import Verif.Model.Pruning
import Verif.Spec.Promotion

/-!
# The variables that the outputs of a model depend on
-/

namespace Marco.Spec
open Marco Split Promo

variable {β : Type}

/-- The output variables, the variables of the equations that determine a needed variable, and the
derivatives and states that belong to a needed variable. -/
inductive Needed (m : Prune.Model β) : Nat → Prop where
  | output {v : Nat} : v < m.base.numVars → m.output v = true → Needed m v
  | equation {v : Nat} {e : Eqn β} {a : Access} : Needed m v → (e ∈ m.base.initial ∨ e ∈ m.base.main) →
      e.matched = v → a ∈ e.accesses → Needed m a.var
  | derivative {v w : Nat} : Needed m v → m.derivative v = some w → Needed m w
  | derived {v w : Nat} : Needed m v → m.derived v = some w → Needed m w

/-- All the variables mentioned are declared, and the two maps of derivatives belong together. -/
structure NamesOk (m : Prune.Model β) : Prop where
  equations : ∀ e, e ∈ m.base.initial ∨ e ∈ m.base.main →
    e.matched < m.base.numVars ∧ ∀ a ∈ e.accesses, a.var < m.base.numVars
  starts : ∀ s ∈ m.starts, s.1 < m.base.numVars ∧ ∀ v ∈ s.2, v < m.base.numVars
  bindings : ∀ s ∈ m.bindings, s.1 < m.base.numVars ∧ ∀ v ∈ s.2, v < m.base.numVars
  derivative : ∀ v w, m.derivative v = some w ↔ m.derived w = some v
  derivativeVar : ∀ v w, m.derivative v = some w → v < m.base.numVars ∧ w < m.base.numVars

/-- Nothing in the model refers to a variable that was removed. -/
structure Closed (p : Prune.Pruned β) : Prop where
  equations : ∀ e, e ∈ p.initial ∨ e ∈ p.main →
    e.matched ∈ p.vars ∧ ∀ a ∈ e.accesses, a.var ∈ p.vars
  starts : ∀ s ∈ p.starts, s.1 ∈ p.vars ∧ ∀ v ∈ s.2, v ∈ p.vars
  bindings : ∀ s ∈ p.bindings, s.1 ∈ p.vars ∧ ∀ v ∈ s.2, v ∈ p.vars

end Marco.Spec
