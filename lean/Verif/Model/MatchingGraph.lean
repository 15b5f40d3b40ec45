import Verif.Model.Point
import Mathlib.Data.Finset.Image
import Mathlib.Data.Finset.Prod

/-!
# Model of the matching graph (`/repo/include/marco/Modeling/Matching.h`)

Simplifications:
* the index sets and the incidence matrices are finite sets of points and of pairs of points
  (C10-C18 and C24-C26 are about the structures that represent them);
* the local matching solver (`solveLocalMatchingProblem`, see C27) is a parameter `solve`;
* the vertices are `Vtx.eq i`, `Vtx.var j`, and the edges are numbered; vertices without indices
  stand for vertices that are not in the graph;
* the parallel loops run in the order of a schedule, which is a parameter;
* the scalarization of the graph (Matching.h:2090-2236) is not modelled: the option
  `enableScalarization` is off;
* `none` is undefined behaviour, or the end of the fuel of a loop.
-/

namespace Marco

/-- A set of incidences between scalar equations and scalar variables. -/
abbrev Mat := Finset (Point × Point)

namespace Mat

/-- MCIM.cpp:482-491, `flattenColumns`: the equations of a matrix. -/
def eqsOf (m : Mat) : Finset Point := m.image Prod.fst

/-- MCIM.cpp:471-480, `flattenRows`: the variables of a matrix. -/
def varsOf (m : Mat) : Finset Point := m.image Prod.snd

/-- MCIM.cpp:493-514, `filterRows`. -/
def filterRows (m : Mat) (s : Finset Point) : Mat := m.filter fun x => x.1 ∈ s

/-- MCIM.cpp:516-537, `filterColumns`. -/
def filterColumns (m : Mat) (s : Finset Point) : Mat := m.filter fun x => x.2 ∈ s

end Mat

namespace Matching
open Mat

/-- Descriptors of the vertices of the graph. -/
inductive Vtx where
  | eq (i : Nat)
  | var (j : Nat)
deriving DecidableEq, Repr

/-- Matching.h:1611-1613, `isVariable`. -/
def Vtx.isVar : Vtx → Bool
  | .eq _ => false
  | .var _ => true

/-- Matching.h:91-119, Matchable (see also `Verif/Model/Matchable.lean`). -/
structure Node where
  idx : Finset Point
  matched : Finset Point
  unmatched : Finset Point

/-- Matching.cpp:35-42. -/
def Node.addMatch (n : Node) (s : Finset Point) : Node :=
  { n with matched := n.matched ∪ s, unmatched := n.unmatched \ s }

/-- Matching.cpp:44-48. -/
def Node.removeMatch (n : Node) (s : Finset Point) : Node :=
  { n with matched := n.matched \ s, unmatched := n.unmatched ∪ s }

/-- Matching.h:645-757, GraphEdge. -/
structure Edge where
  eq : Nat
  var : Nat
  inc : Mat
  matched : Mat
  unmatched : Mat

/-- Matching.h:714-717. -/
def Edge.addMatch (e : Edge) (m : Mat) : Edge :=
  { e with matched := e.matched ∪ m, unmatched := e.unmatched \ m }

/-- Matching.h:719-722. -/
def Edge.removeMatch (e : Edge) (m : Mat) : Edge :=
  { e with matched := e.matched \ m, unmatched := e.unmatched ∪ m }

/-- The graph: the numbers of equations, variables and edges, and their contents. -/
structure Graph where
  ne : Nat
  nv : Nat
  nd : Nat
  node : Vtx → Node
  edge : Nat → Edge

/-- The vertices of the graph. -/
def Graph.vertices (G : Graph) : List Vtx :=
  (List.range G.ne).map .eq ++ (List.range G.nv).map .var

/-- Matching.h:1737-1749, `allNodesMatched`. -/
def Graph.allMatched (G : Graph) : Bool :=
  G.vertices.all fun v => decide ((G.node v).unmatched = ∅)

/-! ### Breadth-first search -/

/-- Matching.h:762-847, Step. -/
inductive Step where
  | root (node : Vtx) (cands : Finset Point)
  | next (prev : Step) (edge : Nat) (node : Vtx) (cands : Finset Point) (flow : Mat)

namespace Step

/-- Matching.h:815. -/
def node : Step → Vtx
  | root n _ => n
  | next _ _ n _ _ => n

/-- Matching.h:817. -/
def cands : Step → Finset Point
  | root _ c => c
  | next _ _ _ c _ => c

/-- Matching.h:2521-2538, `containsFn`. -/
def contains (n : Vtx) (s : Finset Point) : Step → Bool
  | root n' c => decide (n' = n ∧ c = s)
  | next prev _ n' c _ => decide (n' = n ∧ c = s) || contains n s prev

end Step

/-- The local matching solver. -/
abbrev Solver := Mat → List Mat

/-- The table of the traversable edges (Matching.h:1071-1072). -/
abbrev Trav := Vtx → List Nat

/-- Matching.h:2548-2590: expansion of a step at an equation along an edge. The results are the new
steps of the frontier and the complete paths. -/
def expandEq (solve : Solver) (G : Graph) (st : Step) (k : Nat) : List Step × List Step :=
  let e := G.edge k
  let next := Vtx.var e.var
  let sols := (solve (e.unmatched.filterRows st.cands)).filter fun s =>
    !st.contains next s.varsOf
  let free := (G.node next).unmatched
  ((sols.filter fun s => decide (s.filterColumns free = ∅)).map fun s =>
      .next st k next s.varsOf s,
   (sols.filter fun s => !decide (s.filterColumns free = ∅)).map fun s =>
      .next st k next s.varsOf (s.filterColumns free))

/-- Matching.h:2591-2621: expansion of a step at a variable along an edge. -/
def expandVar (solve : Solver) (G : Graph) (st : Step) (k : Nat) : List Step × List Step :=
  let e := G.edge k
  let next := Vtx.eq e.eq
  let sols := (solve (e.matched.filterColumns st.cands)).filter fun s =>
    !st.contains next s.eqsOf
  (sols.map fun s => .next st k next s.eqsOf s, [])

/-- Matching.h:2504-2623, `expandFrontier`. -/
def expand (solve : Solver) (G : Graph) (trav : Trav) (st : Step) : List Step × List Step :=
  let r := (trav st.node).map fun k =>
    if st.node.isVar then expandVar solve G st k else expandEq solve G st k
  (r.flatMap Prod.fst, r.flatMap Prod.snd)

/-- Insertion by decreasing number of candidates, after the steps with the same number. -/
def insertStep (st : Step) : List Step → List Step
  | [] => [st]
  | s :: l => if s.cands.card < st.cands.card then st :: s :: l else s :: insertStep st l

/-- Matching.h:2475-2502, `sortPaths`: a stable sort by decreasing number of candidates. -/
def sortPaths (l : List Step) : List Step := l.foldl (fun l s => insertStep s l) []

/-- A schedule of the parallel loops of one search: the order of the initial frontier, the order in
which the steps append to the new frontier and to the list of the paths, and the order in which the
filter takes its decisions, together with the number of previous decisions that each test of the
filter has seen. -/
structure Sched where
  init : List Step → List Step
  frontier : Nat → List Step → List Step
  paths : Nat → List Step → List Step
  filter : List Step → List Step
  view : Nat → Nat → Nat

/-- Matching.h:2442-2458, `getInitialFrontier`. -/
def initialFrontier (G : Graph) (s : Sched) : List Step :=
  s.init (((List.range G.ne).filter fun i => !decide ((G.node (.eq i)).unmatched = ∅)).map
    fun i => .root (.eq i) (G.node (.eq i)).unmatched)

/-- Matching.h:2407-2435: the search; `fuel` bounds the number of rounds. -/
def search (solve : Solver) (G : Graph) (trav : Trav) (s : Sched) :
    Nat → Nat → List Step → Option (List Step)
  | 0, _, _ => none
  | fuel + 1, round, frontier =>
    if frontier.isEmpty then some []
    else
      let fr := sortPaths frontier
      let paths := (s.paths round fr).flatMap fun st => (expand solve G trav st).2
      if paths.isEmpty then
        search solve G trav s fuel (round + 1)
          ((s.frontier round fr).flatMap fun st => (expand solve G trav st).1)
      else some (sortPaths paths)

/-- Matching.h:2385-2439, `getCandidateAugmentingPaths`. -/
def candidates (solve : Solver) (G : Graph) (trav : Trav) (s : Sched) (fuel : Nat) :
    Option (List Step) :=
  search solve G trav s fuel 0 (initialFrontier G s)

/-! ### Filtering the candidates -/

/-- Matching.h:926-985, Flow. -/
structure Flow where
  source : Vtx
  edge : Nat
  delta : Mat

/-- `llvm::DenseMap<VertexDescriptor, IndexSet>`. -/
abbrev VMap := List (Vtx × Finset Point)

/-- Insertion or assignment. -/
def VMap.set (m : VMap) (v : Vtx) (s : Finset Point) : VMap :=
  (v, s) :: m.filter fun x => !decide (x.1 = v)

/-- `map[v] += s`. -/
def VMap.addTo (m : VMap) (v : Vtx) (s : Finset Point) : VMap :=
  m.set v ((m.lookup v).getD ∅ ∪ s)

/-- Matching.h:2310-2322: the flow that arrives at a step, restricted to what goes on. -/
def restrict (node : Vtx) (flow : Mat) : List Flow → Mat
  | [] => flow
  | f :: _ => if node.isVar then flow.filterColumns f.delta.varsOf
    else flow.filterRows f.delta.eqsOf

/-- Matching.h:2329-2346: the test of one node of a candidate path. -/
def touch (seen : VMap) (node : Vtx) (map : Mat) (nv : VMap) : Option VMap :=
  let touched := if node.isVar then map.varsOf else map.eqsOf
  match seen.lookup node with
  | some s => if touched ∩ s = ∅ then some (nv.addTo node touched) else none
  | none => some (nv.set node touched)

/-- Matching.h:2309-2350: the flows of a candidate path and its visits; `none` if the early check
fails. The test number `j` sees the map `view j`. -/
def scan (view : Nat → VMap) : Step → List Flow → Mat → VMap → Nat → Option (List Flow × VMap)
  | .root node _, flows, map, nv, j => (touch (view j) node map nv).map fun nv => (flows, nv)
  | .next prev k node _ flow, flows, _, nv, j =>
    let map := restrict node flow flows
    (touch (view j) node map nv).bind fun nv =>
      scan view prev (⟨prev.node, k, map⟩ :: flows) map nv (j + 1)

/-- Matching.h:2362-2373: the final check. -/
def clear (visited nv : VMap) : Bool :=
  nv.all fun x => match visited.lookup x.1 with
    | some s => decide (x.2 ∩ s = ∅)
    | none => true

/-- Matching.h:2276-2383, `filterCandidateAugmentingPaths`, for the candidates in the order of the
final decisions. `hist` are the maps of the visits after the previous decisions, the last one
first; the test `j` of the candidate `n` sees the map after `view n j` decisions. -/
def filterPaths (view : Nat → Nat → Nat) :
    List Step → Nat → List VMap → List (List Flow) → List (List Flow)
  | [], _, _, acc => acc
  | p :: ps, n, hist, acc =>
    let visited := hist.headD []
    match scan (fun j => (hist.drop (hist.length - 1 - view n j)).headD []) p [] ∅ [] 0 with
    | none => filterPaths view ps (n + 1) (visited :: hist) acc
    | some (flows, nv) =>
      if clear visited nv then
        filterPaths view ps (n + 1) (nv.foldl (fun m x => m.addTo x.1 x.2) visited :: hist)
          (acc ++ [flows])
      else filterPaths view ps (n + 1) (visited :: hist) acc

/-- Matching.h:2255-2274, `getAugmentingPaths`. -/
def augmentingPaths (s : Sched) (cands : List Step) : List (List Flow) :=
  filterPaths s.view (s.filter cands) 0 [[]] []

/-! ### Applying the paths -/

/-- Matching.h:2651-2652: the vertex reached by a flow. -/
def Flow.target (G : Graph) (f : Flow) : Vtx :=
  if f.source.isVar then .eq (G.edge f.edge).eq else .var (G.edge f.edge).var

/-- Matching.h:2646-2684: the update of the edges. -/
def applyEdge (edge : Nat → Edge) (f : Flow) : Nat → Edge := fun k =>
  if k = f.edge then
    if f.source.isVar then (edge k).removeMatch f.delta else (edge k).addMatch f.delta
  else edge k

/-- Matching.h:2657-2661: what the backward flows remove from a vertex. -/
def removedOf (G : Graph) (path : List Flow) (v : Vtx) : Finset Point :=
  path.foldl (fun s f =>
    if f.source.isVar then
      if v = f.source then s ∪ f.delta.varsOf
      else if v = f.target G then s ∪ f.delta.eqsOf else s
    else s) ∅

/-- Matching.h:2670-2674: what the forward flows add to a vertex. -/
def addedOf (G : Graph) (path : List Flow) (v : Vtx) : Finset Point :=
  path.foldl (fun s f =>
    if f.source.isVar then s
    else
      if v = f.source then s ∪ f.delta.eqsOf
      else if v = f.target G then s ∪ f.delta.varsOf else s) ∅

/-- Matching.h:2627-2696, `applyPath`, the graph. -/
def applyPath (G : Graph) (path : List Flow) : Graph :=
  { G with
    edge := path.foldl applyEdge G.edge
    node := fun v => ((G.node v).removeMatch (removedOf G path v)).addMatch (addedOf G path v) }

/-- `llvm::SetVector::insert`. -/
def insertEdge (l : List Nat) (k : Nat) : List Nat := if k ∈ l then l else l ++ [k]

/-- Matching.h:2663-2669 and 2676-2682: the update of the traversable edges by a flow; `e` is the
updated edge. -/
def travFlow (G : Graph) (f : Flow) (e : Edge) (trav : Trav) : Trav := fun v =>
  if v = f.target G then insertEdge (trav v) f.edge
  else if v = f.source then
    if (if f.source.isVar then e.matched else e.unmatched) = ∅ then (trav v).erase f.edge
    else insertEdge (trav v) f.edge
  else trav v

/-- Matching.h:2627-2696, `applyPath`, the traversable edges. -/
def travPath (G : Graph) : List Flow → (Nat → Edge) → Trav → Trav
  | [], _, trav => trav
  | f :: fs, edge, trav =>
    let edge' := applyEdge edge f
    travPath G fs edge' (travFlow G f (edge' f.edge) trav)

/-- Matching.h:2050-2087, `collectTraversableEdges` (in the order of the edges). -/
def initialTrav (G : Graph) : Trav
  | .eq i => (List.range G.nd).filter fun k =>
    decide ((G.edge k).eq = i) && !decide ((G.edge k).unmatched = ∅)
  | .var j => (List.range G.nd).filter fun k =>
    decide ((G.edge k).var = j) && !decide ((G.edge k).matched = ∅)

/-- Matching.h:2247-2249: application of the accepted paths. -/
def applyAll : List (List Flow) → Graph × Trav → Graph × Trav
  | [], s => s
  | p :: ps, s => applyAll ps (applyPath s.1 p, travPath s.1 p s.1.edge s.2)

/-- Matching.h:2014-2047, `applyHK`: the result and the final graph. The schedule `scheds n` is that
of the iteration number `n`. The candidates of all the iterations are recorded in `log`. -/
def hkLoop (solve : Solver) (scheds : Nat → Sched) (sfuel : Nat) :
    Nat → Nat → Graph × Trav → List Step → Option (Bool × Graph × List Step)
  | 0, _, _, _ => none
  | fuel + 1, n, s, log =>
    (candidates solve s.1 s.2 (scheds n) sfuel).bind fun cands =>
      let paths := augmentingPaths (scheds n) cands
      let s' := applyAll paths s
      if !paths.isEmpty && !s'.1.allMatched then
        hkLoop solve scheds sfuel fuel (n + 1) s' (log ++ cands)
      else some (s'.1.allMatched, s'.1, log ++ cands)

/-- Matching.h:2014-2047, `applyHK`. -/
def applyHK (solve : Solver) (scheds : Nat → Sched) (sfuel fuel : Nat) (G : Graph) :
    Option (Bool × Graph × List Step) :=
  if G.allMatched then some (true, G, [])
  else hkLoop solve scheds sfuel fuel 0 (G, initialTrav G) []

/-! ### Leaf nodes -/

/-- The graph with the visibility flags of the vertices and of the edges. -/
structure Leaf where
  graph : Graph
  visN : Vtx → Bool
  visE : Nat → Bool

/-- Matching.h:1807-1818: the visible edges of a vertex. -/
def Leaf.visibleEdges (s : Leaf) (v : Vtx) : List Nat :=
  (List.range s.graph.nd).filter fun k => s.visE k &&
    (decide (v = .eq (s.graph.edge k).eq) || decide (v = .var (s.graph.edge k).var))

/-- The other end of an edge. -/
def Leaf.other (s : Leaf) (k : Nat) (v : Vtx) : Vtx :=
  if v.isVar then .eq (s.graph.edge k).eq else .var (s.graph.edge k).var

/-- Matching.h:1952-1974: the edges of the vertex `v2` disappear. The result are the new state and
the new candidates. -/
def dropEdges (v2 : Vtx) : List Nat → Leaf → List Vtx → Leaf × List Vtx
  | [], s, c => (s, c)
  | k :: ks, s, c =>
    let s := { s with visE := fun k' => if k' = k then false else s.visE k' }
    let v := s.other k v2
    if !s.visN v then dropEdges v2 ks s c
    else match (s.visibleEdges v).length with
      | 0 => dropEdges v2 ks { s with visN := fun w => if w = v then false else s.visN w } c
      | 1 => dropEdges v2 ks s (c ++ [v])
      | _ => dropEdges v2 ks s c

/-- Matching.h:1892-1985: the simplification of one candidate (`rest` are the remaining ones).
`none`: the candidate has no visible edge, and the iterator of `getFirstOutVisibleEdge`
(1820-1825) is dereferenced at the end. -/
def leafStep (solve : Solver) (v1 : Vtx) (rest : List Vtx) (s : Leaf) :
    Option (Leaf × List Vtx) :=
  if !s.visN v1 then some (s, rest)
  else match s.visibleEdges v1 with
    | [] => none
    | k :: _ =>
      let e := s.graph.edge k
      let v2 := s.other k v1
      let m := (e.unmatched.filterRows (s.graph.node (.eq e.eq)).unmatched).filterColumns
        (s.graph.node (.var e.var)).unmatched
      match solve m with
      | [sol] =>
        let g := applyPath s.graph [⟨.eq e.eq, k, sol⟩]
        let s := { graph := g
                   visN := fun w => if w = v1 then false else s.visN w
                   visE := fun k' => if k' = k then false else s.visE k' : Leaf }
        if (g.node v2).unmatched = ∅ then
          let incident := (List.range g.nd).filter fun k =>
            decide (v2 = .eq (g.edge k).eq) || decide (v2 = .var (g.edge k).var)
          let (s, c) := dropEdges v2 incident s rest
          some ({ s with visN := fun w => if w = v2 then false else s.visN w }, c)
        else some (s, if (s.visibleEdges v2).length = 1 then rest ++ [v2] else rest)
      | _ => some (s, rest)

/-- Matching.h:1836-1987, the loop of `matchLeafNodes`. -/
def leafLoop (solve : Solver) : Nat → List Vtx → Leaf → Option Leaf
  | _, [], s => some s
  | 0, _, _ => none
  | fuel + 1, v :: rest, s =>
    (leafStep solve v rest s).bind fun (s, c) => leafLoop solve fuel c s

/-- Matching.h:1836-2010, `matchLeafNodes` with `collectSimplifiableNodes`, which visits the
vertices in parallel (`order`). -/
def matchLeafNodes (solve : Solver) (order : List Vtx → List Vtx) (fuel : Nat) (G : Graph) :
    Option Graph :=
  let s : Leaf := ⟨G, fun _ => true, fun _ => true⟩
  (leafLoop solve fuel (order (G.vertices.filter fun v => (s.visibleEdges v).length = 1)) s).map
    Leaf.graph

/-- Matching.h:1547-1579, `getUnmatchedGraph`: the vertices are restricted to the unmatched indices,
and the incidences are computed again. -/
def unmatchedGraph (G : Graph) : Graph :=
  { G with
    node := fun v => ⟨(G.node v).unmatched, ∅, (G.node v).unmatched⟩
    edge := fun k =>
      let e := G.edge k
      let m := (e.inc.filterRows (G.node (.eq e.eq)).unmatched).filterColumns
        (G.node (.var e.var)).unmatched
      ⟨e.eq, e.var, m, ∅, m⟩ }

/-- Matching.h:1515-1545, `match`, without scalarization. The result is the success flag, the
matches of every edge (of which `collectMatches`, 1574-1601, returns the equations and the
variables), and the candidates of the search. -/
def run (solve : Solver) (leaves : Bool) (order : List Vtx → List Vtx) (scheds : Nat → Sched)
    (sfuel fuel : Nat) (G : Graph) : Option (Bool × (Nat → Mat) × List Step) :=
  (if leaves then matchLeafNodes solve order fuel G else some G).bind fun G1 =>
    (applyHK solve scheds sfuel fuel (unmatchedGraph G1)).map fun r =>
      (r.1, fun k => (G1.edge k).matched ∪ (r.2.1.edge k).matched, r.2.2)

end Matching
end Marco
