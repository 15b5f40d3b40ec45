import Verif.Model.Cycles

/-!
# What is claimed about the components of a system of equations

A scalar equation is an equation and a point of its iteration range.
-/

namespace Marco.Spec
open Marco Marco.Cycles

/-- A scalar equation: the equation and the point. -/
abbrev ScalarEq := Nat × Point

/-- The scalar equation exists. -/
def IsScalarEq (eqs : Nat → Eqn) (s : ScalarEq) : Prop := s.2 ∈ (eqs s.1).it

/-- The first scalar equation reads an element that the second writes. -/
def DependsOn (eqs : Nat → Eqn) (s t : ScalarEq) : Prop :=
  IsScalarEq eqs s ∧ IsScalarEq eqs t ∧
    ∃ r ∈ (eqs s.1).reads, ∃ w ∈ (eqs t.1).writes, r.var = w.var ∧ ∃ v ∈ r.img s.2, v ∈ w.img t.2

/-- Each depends on the other, directly or through other equations. -/
def MutuallyDependent (eqs : Nat → Eqn) (s t : ScalarEq) : Prop :=
  Relation.TransGen (DependsOn eqs) s t ∧ Relation.TransGen (DependsOn eqs) t s

/-- A set of components has the scalar equation in this many places. -/
def occurrences (out : List (List View)) (s : ScalarEq) : Nat :=
  (out.flatten.filter fun v => v.1 == s.1 && decide (s.2 ∈ v.2)).length

/-- Each scalar equation of the listed equations is in exactly one place, and nothing else is. -/
def PartitionsScalars (eqs : Nat → Eqn) (all : List Nat) (out : List (List View)) : Prop :=
  ∀ s : ScalarEq, occurrences out s = if s.1 ∈ all ∧ s.2 ∈ (eqs s.1).it then 1 else 0

/-- Two scalar equations are in the same component. -/
def SameComponent (out : List (List View)) (s t : ScalarEq) : Prop :=
  ∃ c ∈ out, (∃ v ∈ c, v.1 = s.1 ∧ s.2 ∈ v.2) ∧ ∃ v ∈ c, v.1 = t.1 ∧ t.2 ∈ v.2

/-- All the write accesses of an equation denote the same elements. -/
def SameWrites (e : Eqn) : Prop :=
  ∀ a ∈ e.writes, ∀ b ∈ e.writes, a.var = b.var ∧ ∀ i ∈ e.it, a.img i = b.img i

/-- No scalar equation depends on another one of the same array equation. -/
def SelfFree (eqs : Nat → Eqn) (e : Nat) : Prop :=
  ∀ p q, DependsOn eqs (e, p) (e, q) → p = q

/-- The equation is a scalar one. -/
def IsScalar (e : Eqn) : Prop := ∃ p, e.it = {p}

/-- No element is written by two scalar equations. -/
def Matched (eqs : Nat → Eqn) : Prop :=
  ∀ s t : ScalarEq, IsScalarEq eqs s → IsScalarEq eqs t →
    (∃ w ∈ (eqs s.1).writes, ∃ u ∈ (eqs t.1).writes, w.var = u.var ∧
      ∃ v ∈ w.img s.2, v ∈ u.img t.2) → s = t

/-- Some index of the first array equation depends on some index of the second. -/
def ArrayDependsOn (eqs : Nat → Eqn) (e f : Nat) : Prop := ∃ p q, DependsOn eqs (e, p) (f, q)

/-- The components of the array dependency graph. -/
structure ArrayComponents (eqs : Nat → Eqn) (sccs : List (List Nat)) : Prop where
  nodup : sccs.flatten.Nodup
  all : ∀ e, (eqs e).it.Nonempty → e ∈ sccs.flatten
  same : ∀ scc ∈ sccs, ∀ e ∈ scc, ∀ f ∈ sccs.flatten, f ∈ scc ↔
    Relation.ReflTransGen (ArrayDependsOn eqs) e f ∧ Relation.ReflTransGen (ArrayDependsOn eqs) f e

/-- Among the equations of the component, each scalar equation depends on at most one other. -/
def OneDependency (eqs : Nat → Eqn) (scc : List Nat) : Prop :=
  ∀ s t u : ScalarEq, t.1 ∈ scc → u.1 ∈ scc → s ≠ t → s ≠ u →
    DependsOn eqs s t → DependsOn eqs s u → t = u

/-- The assertion of DependencyGraph.h:383, `checkEquationsPartitioning`: the nodes of an equation are
equal or have no index in common. -/
def NoOverlaps (cycles : List (List Dep)) : Prop :=
  ∀ a ∈ cycles.flatten, ∀ b ∈ cycles.flatten, a.eq = b.eq → a.idx = b.idx ∨ Disjoint a.idx b.idx

end Marco.Spec
