import Verif.Model.MatchingGraph

/-!
# Specification vocabulary for matchings
-/

namespace Marco
namespace Spec
open Matching Mat

/-- No row and no column with two elements. -/
def OneToOne (m : Mat) : Prop :=
  ∀ p q p' q', (p, q) ∈ m → (p', q') ∈ m → (p = p' ↔ q = q')

/-- A solver that returns only parts of the matrix without conflicts. -/
def SolverOk (solve : Solver) : Prop := ∀ m, ∀ s ∈ solve m, s ⊆ m ∧ OneToOne s

/-- The incidences connect indices of the vertices, and only finitely many edges exist. -/
structure GraphOk (G : Graph) : Prop where
  eqLt : ∀ k < G.nd, (G.edge k).eq < G.ne
  varLt : ∀ k < G.nd, (G.edge k).var < G.nv
  inc : ∀ k p q, (p, q) ∈ (G.edge k).inc → k < G.nd ∧ p ∈ (G.node (.eq (G.edge k).eq)).idx ∧
    q ∈ (G.node (.var (G.edge k).var)).idx

/-- The state of the graph describes a matching: every scalar equation is matched with at most one
scalar variable and conversely, along incidences, and the vertices know which of their indices are
matched. -/
structure Valid (G : Graph) : Prop extends GraphOk G where
  sub : ∀ k, (G.edge k).matched ⊆ (G.edge k).inc
  unm : ∀ k, (G.edge k).unmatched = (G.edge k).inc \ (G.edge k).matched
  row : ∀ k k' p q q', (p, q) ∈ (G.edge k).matched → (p, q') ∈ (G.edge k').matched →
    (G.edge k).eq = (G.edge k').eq → k = k' ∧ q = q'
  col : ∀ k k' p p' q, (p, q) ∈ (G.edge k).matched → (p', q) ∈ (G.edge k').matched →
    (G.edge k).var = (G.edge k').var → k = k' ∧ p = p'
  eqs : ∀ i p, p ∈ (G.node (.eq i)).matched ↔ ∃ k q, (G.edge k).eq = i ∧ (p, q) ∈ (G.edge k).matched
  vars : ∀ j q, q ∈ (G.node (.var j)).matched ↔
    ∃ k p, (G.edge k).var = j ∧ (p, q) ∈ (G.edge k).matched
  part : ∀ v, (G.node v).unmatched = (G.node v).idx \ (G.node v).matched

/-- A graph without matches. -/
structure Fresh (G : Graph) : Prop extends GraphOk G where
  edge : ∀ k, (G.edge k).matched = ∅ ∧ (G.edge k).unmatched = (G.edge k).inc
  node : ∀ v, (G.node v).matched = ∅ ∧ (G.node v).unmatched = (G.node v).idx

/-- A list of flows that starts at the unmatched indices `P` of the equation `i` (or at indices that
have just been released), alternates flows towards variables along unmatched incidences and flows
towards equations along matched incidences, and ends at unmatched indices of a variable. -/
inductive Aug (G : Graph) : Nat → Finset Point → List Flow → Prop
  | last {i k : Nat} {P : Finset Point} {d : Mat} : (G.edge k).eq = i → d ⊆ (G.edge k).unmatched →
      OneToOne d → d.eqsOf = P → d.varsOf ⊆ (G.node (.var (G.edge k).var)).unmatched →
      Aug G i P [⟨.eq i, k, d⟩]
  | step {i k k' : Nat} {P : Finset Point} {d b : Mat} {rest : List Flow} : (G.edge k).eq = i →
      d ⊆ (G.edge k).unmatched → OneToOne d → d.eqsOf = P → (G.edge k').var = (G.edge k).var →
      b ⊆ (G.edge k').matched → OneToOne b → b.varsOf = d.varsOf →
      Aug G (G.edge k').eq b.eqsOf rest →
      Aug G i P (⟨.eq i, k, d⟩ :: ⟨.var (G.edge k).var, k', b⟩ :: rest)

/-- Two flows do not touch the same scalars. -/
def FDisj (G : Graph) (f f' : Flow) : Prop :=
  ((G.edge f.edge).eq = (G.edge f'.edge).eq → Disjoint f.delta.eqsOf f'.delta.eqsOf) ∧
  ((G.edge f.edge).var = (G.edge f'.edge).var → Disjoint f.delta.varsOf f'.delta.varsOf)

/-- Two paths do not touch the same scalars. -/
def PDisj (G : Graph) (p p' : List Flow) : Prop := ∀ f ∈ p, ∀ f' ∈ p', FDisj G f f'

/-- The flows of a path from equations to variables. -/
def forward (p : List Flow) : List Flow := p.filter fun f => !f.source.isVar

/-- An augmenting path: it starts and ends at unmatched indices, and does not go through the same
scalar twice. -/
def AugPath (G : Graph) (i : Nat) (p : List Flow) : Prop :=
  ∃ P, P ⊆ (G.node (.eq i)).unmatched ∧ Aug G i P p ∧ (forward p).Pairwise (FDisj G)

/-- The number of matched scalar equations. -/
def matchedEqs (G : Graph) : Nat := ((List.range G.ne).map fun i => (G.node (.eq i)).matched.card).sum

/-- The number of matched scalar variables. -/
def matchedVars (G : Graph) : Nat :=
  ((List.range G.nv).map fun j => (G.node (.var j)).matched.card).sum

/-- Every index of every equation and of every variable is matched exactly once, along the
incidences of the graph. -/
def Perfect (G : Graph) (m : Nat → Mat) : Prop :=
  (∀ k, m k ⊆ (G.edge k).inc) ∧
  (∀ i < G.ne, ∀ p ∈ (G.node (.eq i)).idx,
    ∃! x : Nat × Point, (G.edge x.1).eq = i ∧ (p, x.2) ∈ m x.1) ∧
  (∀ j < G.nv, ∀ q ∈ (G.node (.var j)).idx,
    ∃! x : Nat × Point, (G.edge x.1).var = j ∧ (x.2, q) ∈ m x.1)

/-- The vertices of a candidate path, the last one first. -/
def nodes : Step → List Vtx
  | .root n _ => [n]
  | .next prev _ n _ _ => n :: nodes prev

/-- A path of the search: it starts at unmatched indices of an equation and alternates solutions
inside the unmatched incidences of the edges and solutions inside the matched ones, each starting
from what the previous one has reached. -/
inductive IsPath (G : Graph) : Step → Prop
  | root {i : Nat} {c : Finset Point} : c ⊆ (G.node (.eq i)).unmatched →
      IsPath G (.root (.eq i) c)
  | toVar {prev : Step} {k : Nat} {flow : Mat} : IsPath G prev → prev.node = .eq (G.edge k).eq →
      flow ⊆ (G.edge k).unmatched → OneToOne flow → flow.eqsOf ⊆ prev.cands →
      prev.contains (.var (G.edge k).var) flow.varsOf = false →
      IsPath G (.next prev k (.var (G.edge k).var) flow.varsOf flow)
  | toEq {prev : Step} {k : Nat} {flow : Mat} : IsPath G prev → prev.node = .var (G.edge k).var →
      flow ⊆ (G.edge k).matched → OneToOne flow → flow.varsOf ⊆ prev.cands →
      prev.contains (.eq (G.edge k).eq) flow.eqsOf = false →
      IsPath G (.next prev k (.eq (G.edge k).eq) flow.eqsOf flow)

/-- A candidate augmenting path: the last flow ends in unmatched indices of a variable (`c` are all
the indices of the variable that the last solution reaches). -/
def Candidate (G : Graph) : Step → Prop
  | .root _ _ => False
  | .next prev k n c flow => IsPath G prev ∧ prev.node = .eq (G.edge k).eq ∧
      n = .var (G.edge k).var ∧ flow ⊆ (G.edge k).unmatched ∧ OneToOne flow ∧
      flow.eqsOf ⊆ prev.cands ∧ flow.varsOf ⊆ (G.node n).unmatched ∧ flow ≠ ∅ ∧
      flow.varsOf ⊆ c ∧ prev.contains n c = false ∧
      c ⊆ (G.edge k).unmatched.varsOf

/-- The orders of a schedule are permutations of the lists. -/
structure SchedOk (s : Sched) : Prop where
  init : ∀ l, (s.init l).Perm l
  frontier : ∀ n l, (s.frontier n l).Perm l
  paths : ∀ n l, (s.paths n l).Perm l
  filter : ∀ l, (s.filter l).Perm l

end Spec
end Marco
