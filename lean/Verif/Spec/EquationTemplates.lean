import Mathlib.Algebra.BigOperators.Group.Finset.Basic
import Mathlib.Algebra.Order.Group.Multiset
import Verif.Model.EquationTemplates

/-!
# The scalar equations of a section, and of equation instances
-/

namespace Marco.Spec
open Marco Split Templ
open scoped BigOperators

/-- The values of the range `first : step : last` (Modelica 3.6, 10.4.3 and 8.3.3). -/
def forValues (first step last : Int) : Finset Int :=
  if 0 < step then (Finset.Icc first last).filter fun v => step ∣ v - first
  else if step < 0 then (Finset.Icc last first).filter fun v => step ∣ v - first
  else ∅

/-- The values of an index of a `for` equation. -/
def indexRange : ForRange → Finset Int
  | .two b e => forValues b 1 e
  | .three b s e => forValues b s e

/-- The subscripts of an array with the given sizes. -/
def subscripts : List Nat → Finset Point
  | [] => {[]}
  | d :: ds => (Finset.Ico 0 (d : Int) ×ˢ subscripts ds).image fun (x, q) => x :: q

/-- The scalar equations that `l = r` stands for: one for each element. -/
def elementwise {α : Type} (env : Point) (l r : Val α) : Multiset (α × α) :=
  match l.shape with
  | none => {(l.elem env [], r.elem env [])}
  | some ds => ∑ s ∈ subscripts (ds.map Dim.size), {(l.elem env s, r.elem env s)}

/-- The scalar equations between two lists of values. -/
def sidesEquations {α : Type} (env : Point) (lhs rhs : List (Val α)) : Multiset (α × α) :=
  ((lhs.zip rhs).map fun (l, r) => elementwise env l r).sum

/-- The sum over all values of the indices, which come after those in `env`. -/
def overIndices {β : Type} [AddCommMonoid β] : List (Finset Int) → Point → (Point → β) → β
  | [], env, f => f env
  | s :: ss, env, f => ∑ v ∈ s, overIndices ss (env ++ [v]) f

mutual
/-- The scalar equations that an equation stands for. -/
def equationScalars {α : Type} (env : Point) : Eqn α → Multiset (α × α)
  | .equality l r => sidesEquations env l r
  | .loop i is body =>
    overIndices (indexRange i :: is.map indexRange) env fun e => sectionScalars e body
/-- The scalar equations that a section stands for. -/
def sectionScalars {α : Type} (env : Point) : List (Eqn α) → Multiset (α × α)
  | [] => 0
  | e :: es => equationScalars env e + sectionScalars env es
end

/-- The scalar equations that an instance stands for: one for each point of the ranges, and a single
one if there are no induction variables. -/
def instanceScalars {α : Type} (i : Instance α) : Multiset (α × α) :=
  if i.dims = 0 then sidesEquations [] i.lhs i.rhs
  else ∑ p ∈ points i.ranges, sidesEquations p i.lhs i.rhs

/-- The values are both scalars or arrays of the same sizes. -/
def SameShape {α : Type} (l r : Val α) : Prop :=
  l.shape.map (List.map Dim.size) = r.shape.map (List.map Dim.size)

/-- The types tell the sizes. -/
def Static {α : Type} (v : Val α) : Prop := ∀ ds, v.shape = some ds → ∀ d ∈ ds, d.known = true

mutual
/-- All equations have as many values on both sides, with a property. -/
def eqnHas {α : Type} (P : Val α → Val α → Prop) : Eqn α → Prop
  | .equality l r => List.Forall₂ P l r
  | .loop _ _ body => sectionHas P body
/-- All equations of the section have as many values on both sides, with a property. -/
def sectionHas {α : Type} (P : Val α → Val α → Prop) : List (Eqn α) → Prop
  | [] => True
  | e :: es => eqnHas P e ∧ sectionHas P es
end

mutual
/-- All ranges of the indices have a property. -/
def eqnRanges {α : Type} (P : ForRange → Prop) : Eqn α → Prop
  | .equality _ _ => True
  | .loop i is body => P i ∧ (∀ j ∈ is, P j) ∧ sectionRanges P body
/-- All ranges of the indices of the section have a property. -/
def sectionRanges {α : Type} (P : ForRange → Prop) : List (Eqn α) → Prop
  | [] => True
  | e :: es => eqnRanges P e ∧ sectionRanges P es
end

/-- The step of a range is not 0. -/
def stepNonzero : ForRange → Prop
  | .two _ _ => True
  | .three _ s _ => s ≠ 0

/-- The bounds and the step are integers of 64 bits, and taking a step from any value does not
overflow. -/
def SmallRange : ForRange → Prop
  | .two b e => -maxInt < b ∧ b < maxInt ∧ -maxInt < e ∧ e < maxInt
  | .three b s e => -maxInt < b - |s| ∧ b + |s| < maxInt ∧ -maxInt < e - |s| ∧ e + |s| < maxInt

/-- The range goes up, and one more step does not overflow. -/
def Upwards : ForRange → Prop
  | .two _ e => e + 1 ≤ maxInt
  | .three _ s e => 0 < s ∧ e + s ≤ maxInt

/-- The range has a value. -/
def NonemptyRange (r : ForRange) : Prop := (indexRange r).Nonempty

/-- No array has a size of 0, and the sizes are integers of 64 bits. -/
def SizesOk {α : Type} (v : Val α) : Prop :=
  ∀ ds, v.shape = some ds → ∀ d ∈ ds, 0 < d.size ∧ (d.size : Int) ≤ maxInt

/-- The sizes are integers of 64 bits. -/
def SizesFit {α : Type} (v : Val α) : Prop :=
  ∀ ds, v.shape = some ds → ∀ d ∈ ds, (d.size : Int) ≤ maxInt

/-- The ranges are as `IndexSet` needs them: none only if there are no induction variables,
nonempty, disjoint, and with a coordinate for each induction variable. -/
structure RangesOk {α : Type} (i : Instance α) : Prop where
  empty : i.ranges = [] ↔ i.dims = 0
  rank : ∀ b ∈ i.ranges, b.length = i.dims
  valid : ∀ b ∈ i.ranges, ∀ r ∈ b, r.b < r.e
  disj : i.ranges.Pairwise Disj

/-- There is one scalar on each side. -/
def ScalarSides {α : Type} (i : Instance α) : Prop :=
  ∃ l r, i.lhs = [l] ∧ i.rhs = [r] ∧ l.shape = none ∧ r.shape = none

end Marco.Spec
