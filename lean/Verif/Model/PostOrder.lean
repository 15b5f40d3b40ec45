import Verif.Model.DependencyGraph

/-! # Ordering of the strongly connected components

Model of `SCCsDependencyGraph` and of the post-order visits of the scheduler. The visit itself is
`llvm::post_order_ext` (llvm/ADT/PostOrderIterator.h), which is not part of the repository and is
modelled from its definition: a stack of vertices with their remaining children, and an external set
of visited vertices. -/

namespace Marco.PostOrder

variable {α : Type} [DecidableEq α]

/-- The state of the visit: the stack, the visited vertices, the vertices returned so far. -/
structure St (α : Type) where
  stack : List (α × List α)
  visited : List α
  out : List α

/-- One step of the iterator: look at the next child of the vertex on the top of the stack, or return
the vertex when there are no more children. -/
def step (adj : α → List α) (s : St α) : St α :=
  match s.stack with
  | [] => s
  | (n, []) :: st => ⟨st, s.visited, s.out ++ [n]⟩
  | (n, c :: cs) :: st =>
    if s.visited.contains c then ⟨(n, cs) :: st, s.visited, s.out⟩
    else ⟨(c, adj c) :: (n, cs) :: st, c :: s.visited, s.out⟩

/-- The visit; `none`: out of fuel. -/
def run (adj : α → List α) : Nat → St α → Option (List α)
  | 0, _ => none
  | k + 1, s => if s.stack.isEmpty then some s.out else run adj k (step adj s)

/-- SingleEntryWeaklyConnectedDigraph.h:35 and :57-65: the entry node (`none`) is connected to each
vertex when the vertex is added. -/
def entryAdj (vs : List α) (adj : α → List α) : Option α → List (Option α)
  | none => vs.map some
  | some v => (adj v).map some

/-- A number of steps sufficient for the visit: one per vertex and per edge, entry node included. -/
def steps (vs : List α) (adj : α → List α) : Nat :=
  (((none : Option α) :: vs.map some).map fun v => (entryAdj vs adj v).length + 1).sum + 1

/-- SCCsDependencyGraph.h:86-98 and ScalarEquationsDependencyGraph.h:134-147, `postOrder`: the visit
from the entry node, which is then dropped. -/
def postOrder (vs : List α) (adj : α → List α) : Option (List α) :=
  (run (entryAdj vs adj) (steps vs adj) ⟨[(none, vs.map some)], [none], []⟩).map
    fun l => l.filterMap id

/-! ### The graph of the components -/

/-- A component: its elements (`SCCTraits::getElements`), each with its dependencies
(`SCCTraits::getDependencies`). -/
abbrev Scc := List (Nat × List Nat)

/-- SCCsDependencyGraph.h:48-61: `parentSCC`, the component of each element; later components
overwrite. -/
def parentOf : List Scc → Nat → Nat → Option Nat
  | [], _, _ => none
  | s :: ss, i, e =>
    match parentOf ss (i + 1) e with
    | some j => some j
    | none => if s.any fun x => x.1 == e then some i else none

/-- SCCsDependencyGraph.h:71-82: the outgoing edges of a component, without duplicates. `none`: the
past-the-end iterator is dereferenced (line 75). -/
def connect (sccs : List Scc) (s : Scc) : Option (List Nat) :=
  (s.flatMap fun x => x.2).foldlM (fun acc d => (parentOf sccs 0 d).map fun j =>
    if acc.contains j then acc else acc ++ [j]) []

/-- SCCsDependencyGraph.h:63-83: the adjacency lists of all components. -/
def addSCCs (sccs : List Scc) : Option (List (List Nat)) := sccs.mapM (connect sccs)

/-- The order in which `Scheduler::schedule` (Scheduling.h:193-199) visits the components. -/
def scheduleOrder (sccs : List Scc) : Option (List Nat) := do
  let adj ← addSCCs sccs
  postOrder (List.range sccs.length) fun i => adj.getD i []

/-! ### Scalar equations -/

open DepGraph in
/-- Scheduling.h:245-268 and ScalarEquationsDependencyGraph.h:134-147: the order of the scalar
equations of the graph with the given edges. -/
def scalarOrder (eqs : List ArrEq) (edges : List ((Nat × Point) × (Nat × Point))) :
    Option (List (Nat × Point)) :=
  postOrder (scalarVertices eqs) fun x => (edges.filter fun e => e.1 = x).map fun e => e.2

end Marco.PostOrder
