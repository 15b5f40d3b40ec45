import Verif.Model.ReadOnlyPropagation

/-!
# What the propagation of read-only variables should do
-/

namespace Marco.Spec.ROProp
open Marco.ROProp

/-- Values and the meaning of the operations. -/
structure Sem (α : Type) where
  dflt : α
  app : String → List α → α

variable {α : Type}

/-- The values of the operations run in order, from the values `env`. -/
def run (S : Sem α) (σ : String → α) : List Op → (ℕ → α) → ℕ → α
  | [], env => env
  | o :: os, env =>
    run S σ os (Function.update env o.res (match o.kind with
      | .get v => σ v
      | .app f => S.app f (o.args.map env)))

/-- The values a region yields. -/
def values (S : Sem α) (σ : String → α) (r : Region) : List α :=
  r.outs.map (run S σ r.ops fun _ => S.dflt)

/-- SSA form: distinct results, operands defined before. -/
inductive Ssa : List ℕ → List Op → Prop
  | nil (ds : List ℕ) : Ssa ds []
  | cons {ds : List ℕ} {o : Op} {os : List Op} :
      o.res ∉ ds → (∀ a ∈ o.args, a ∈ ds) → Ssa (o.res :: ds) os → Ssa ds (o :: os)

/-- A well-formed region: SSA form, existing values yielded, exactly one by a binding equation. -/
structure Formed (r : Region) : Prop where
  ssa : Ssa [] r.ops
  outs : ∀ a ∈ r.outs, a ∈ r.ops.map (·.res)
  one : r.owner.isSome → r.outs.length = 1

/-- A well-formed model. Each variable has at most one binding equation, and is declared. -/
structure WellFormed (m : Model) : Prop where
  regions : ∀ r ∈ m.regions, Formed r
  unique : ∀ (i j : ℕ) (r s : Region) (v : String), m.regions[i]? = some r → m.regions[j]? = some s →
    r.owner = some v → s.owner = some v → i = j
  declared : ∀ r ∈ m.regions, ∀ v : String, r.owner = some v → v ∈ m.vars.map (·.1)

/-- The variable is a parameter or constant, according to its (first) declaration. -/
def ReadOnly (m : Model) (v : String) : Prop := (m.vars.find? (·.1 == v)).map (·.2) = some true

/-- The values `σ` satisfy the binding equations of the read-only variables. -/
def Solves (S : Sem α) (m : Model) (σ : String → α) : Prop :=
  ∀ r ∈ m.regions, ∀ v : String, r.owner = some v → ReadOnly m v → values S σ r = [σ v]

/-- Reads of the variable are to be replaced. -/
def Propagated (m : Model) (v : String) : Prop :=
  ReadOnly m v ∧ v ∉ m.ignored ∧ ∃ r ∈ m.regions, r.owner = some v

/-- The region reads the variable. -/
def Reads (r : Region) (v : String) : Prop := ∃ o ∈ r.ops, o.kind = .get v

/-- No binding equation of a propagated variable reads that variable. -/
def NoSelf (m : Model) : Prop :=
  ∀ r ∈ m.regions, ∀ v : String, r.owner = some v → Propagated m v → ¬ Reads r v

/-- Each region comes after the binding equations of the propagated variables it reads. -/
def Topological (m : Model) (order : List ℕ) : Prop :=
  ∀ (pre post : List ℕ) (k : ℕ), order = pre ++ k :: post → ∀ (r s : Region) (b : ℕ) (v : String),
    m.regions[k]? = some r → Reads r v → Propagated m v → m.regions[b]? = some s →
    s.owner = some v → b ∈ pre

end Marco.Spec.ROProp
