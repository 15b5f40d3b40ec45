import Verif.Model.StartValues
import Mathlib.Data.List.Forall2

/-!
# What binding equations and start values mean
-/

namespace Marco.Spec.StartVals
open Marco.StartVals

/-- The value of each element of each variable. -/
abbrev State (V : Type) := Nat → List Nat → V

/-- What the expressions compute, and which values solve the equations of the source. -/
structure Meaning (V : Type) where
  code : Nat → State V → List Nat → V
  zero : V
  user : Nat → State V → Prop

variable {V : Type}

/-- An element of the value of a region. -/
def Meaning.value (M : Meaning V) (σ : State V) : Region → List Nat → V
  | .code i _ => M.code i σ
  | .zero _ => fun _ => M.zero

/-- An element of a variable. -/
def Element (d : Decl) (p : List Nat) : Prop := List.Forall₂ (· < ·) p d.shape

/-- A template holds at all the indices of its variable. -/
def Holds (M : Meaning V) (ds : List Decl) (σ : State V) (t : Template) : Prop :=
  ∀ d ∈ ds, d.name = t.var → ∀ p, Element d p →
    σ t.var (t.lhs.map fun i => p.getD i 0) = M.value σ t.region (t.rhs.map fun i => p.getD i 0)

/-- The values solve the equation. -/
def Solves (M : Meaning V) (ds : List Decl) (σ : State V) : Equation → Prop
  | .user i => M.user i σ
  | .made t => Holds M ds σ t

/-- The template is well formed: as many indices as dimensions on both sides, which are inductions of the template. -/
def Valid (ds : List Decl) (t : Template) : Prop :=
  (∃ d ∈ ds, d.name = t.var ∧ t.lhs.length = d.shape.length ∧ t.inductions = d.shape.length) ∧
    t.rhs.length = t.region.rank ∧ ∀ i ∈ t.lhs ++ t.rhs, i < t.inductions

/-- The variable is equal to its binding equation, element by element. -/
def BindingHolds (M : Meaning V) (σ : State V) (d : Decl) : Prop :=
  ∀ e, d.binding = some e → ∀ p, Element d p → σ d.name p = M.value σ e p

/-- The variable has the start value `e`, which is repeated along the first dimensions if it has less of them. -/
def StartHolds (M : Meaning V) (σ : State V) (d : Decl) (e : Region) : Prop :=
  ∀ p, Element d p → σ d.name p = M.value σ e (p.drop (p.length - e.rank))

/-- `fixed = true` is written. -/
def FixedWritten (d : Decl) : Prop := ∃ each, .fixed each true ∈ d.args

/-- `start = e` is written. -/
def StartWritten (d : Decl) (e : Region) : Prop := ∃ each, .start each e ∈ d.args

/-- The attribute `fixed`: it is true by default for parameters and constants, and false for the other variables
(Modelica Language Specification, "Predefined Types and Classes"). -/
def Fixed (d : Decl) : Prop := FixedWritten d ∨ (d.readOnly = true ∧ ∀ each b, .fixed each b ∉ d.args)

/-- The start value of a variable is used if it is fixed, except for a parameter with a binding equation; it is zero by
default. -/
def StartUsed (M : Meaning V) (σ : State V) (d : Decl) : Prop :=
  Fixed d → (d.readOnly = true → d.binding = none) →
    (∀ e, StartWritten d e → StartHolds M σ d e) ∧
    ((∀ e, ¬ StartWritten d e) → d.materializable = true → ∀ p, Element d p → σ d.name p = M.zero)

/-- The solutions of the equations of the model: also the binding equations of the variables that are no parameters. -/
def SolvesDynamic (M : Meaning V) (ds : List Decl) (dynamic : List Equation) (σ : State V) : Prop :=
  (∀ e ∈ dynamic, Solves M ds σ e) ∧ ∀ d ∈ ds, d.readOnly = false → BindingHolds M σ d

/-- The solutions of the initialization problem: the equations and the initial equations, the binding equations, and the
fixed start values. -/
def SolvesInitial (M : Meaning V) (ds : List Decl) (dynamic initial : List Equation) (σ : State V) : Prop :=
  (∀ e ∈ dynamic ++ initial, Solves M ds σ e) ∧ (∀ d ∈ ds, BindingHolds M σ d) ∧ ∀ d ∈ ds, StartUsed M σ d

/-- The variables have distinct names, a binding equation has the rank of the variable, a start value at most this rank;
at most one `start` and one `fixed` are written for each variable. -/
structure WellFormed (ds : List Decl) : Prop where
  names : (ds.map (·.name)).Nodup
  bindings : ∀ d ∈ ds, ∀ e, d.binding = some e → e.rank = d.shape.length
  starts : ∀ d ∈ ds, ∀ e, StartWritten d e → e.rank ≤ d.shape.length
  oneStart : ∀ d ∈ ds, ∀ e e', StartWritten d e → StartWritten d e' → e = e'
  oneFixed : ∀ d ∈ ds, ∀ x y b b', .fixed x b ∈ d.args → .fixed y b' ∈ d.args → b = b'

end Marco.Spec.StartVals
