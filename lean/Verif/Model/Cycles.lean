import Verif.Model.Box
import Mathlib.Data.Finset.Union
import Mathlib.Data.Finset.SDiff
import Mathlib.Data.Finset.Lattice.Basic
import Mathlib.Logic.Relation

/-!
# Model of the search of cycles among array equations
(`/repo/include/marco/Modeling/DependencyGraph.h`)

An equation is a number, and so is a variable. Index sets are finite sets of points: what is stored is
the subject of C07–C18, and the updates `+=` and `-=` are taken as exact here. Access functions are
given by the elements that each point accesses, `map` and `inverseMap` as defined by them (C20–C23 say
when that is so). The ranges of an index set, and the order in which the entries of the tree of
writes are visited, are parameters (`Rep`).

The recursion of `getEquationsCycles` has a bound on its depth; the result is `none` if it is exceeded.
-/

namespace Marco.Cycles
open Marco

/-- include/marco/Modeling/Dependency.h, `Access`: a variable and an access function. -/
structure Acc where
  var : Nat
  img : Point → Finset Point

/-- `AccessFunction::map(IndexSet)`. -/
def Acc.map (a : Acc) (s : Finset Point) : Finset Point := s.biUnion a.img

/-- `AccessFunction::inverseMap(accessedIndices, parentIndices)`. -/
def Acc.inverseMap (a : Acc) (vs es : Finset Point) : Finset Point :=
  es.filter fun i => a.img i ∩ vs ≠ ∅

/-- An equation of the array dependency graph: `getIterationRanges`, and the cached accesses of
DependencyGraph.h:341-366. (They are sorted there with an unstable sort: any order is considered.) -/
structure Eqn where
  it : Finset Point
  writes : List Acc
  reads : List Acc

/-- `WriteInfo` (include/marco/Modeling/Dependency.h): the equation and the range it writes. -/
structure WInfo where
  eq : Nat
  box : Finset Point

/-- How index sets are stored: the ranges of a set; the entries visited for a set of indices, range by
range, by `walkOverlappingObjects` (DependencyGraph.h:592-596). -/
structure Rep where
  ranges : Finset Point → List (Finset Point)
  walk : Finset Point → List WInfo → List WInfo

/-- The union of the ranges is the set; the visited entries are those that overlap it. -/
structure Rep.Ok (r : Rep) : Prop where
  ranges : ∀ s p, p ∈ s ↔ ∃ b ∈ r.ranges s, p ∈ b
  walk : ∀ s l w, w ∈ r.walk s l ↔ w ∈ l ∧ ∃ p ∈ s, p ∈ w.box

/-- ArrayEquationsDependencyGraph.h:136-160, `getWritesMap`: the entries of a variable. -/
def writesMap (eqs : Nat → Eqn) (rep : Rep) (scc : List Nat) (v : Nat) : List WInfo :=
  scc.flatMap fun e =>
    match (eqs e).writes with
    | [] => []
    | a :: _ =>
      if a.var = v then
        (rep.ranges ((eqs e).writes.foldl (fun s w => s ∪ w.map (eqs e).it) ∅)).map fun b => ⟨e, b⟩
      else []

/-- DependencyGraph.h:15-33, `PathDependency`. -/
structure Dep where
  eq : Nat
  idx : Finset Point
  wa : Acc
  written : Finset Point
  ra : Acc
  read : Finset Point

/-- DependencyGraph.h:680-707, `restrictPathIndicesForward`: the nodes after the starting point. -/
def fwd (prev : Dep) : List Dep → List Dep
  | [] => []
  | c :: cs =>
    let n := c.wa.inverseMap prev.read c.idx
    if n = c.idx then { c with written := prev.read } :: cs
    else
      let c' := { c with written := prev.read, idx := n, read := c.ra.map n }
      c' :: fwd c' cs

/-- DependencyGraph.h:709-739, `restrictPathIndicesBackward`: the nodes before the starting point, the
nearest first. -/
def bwd (prev : Dep) : List Dep → List Dep
  | [] => []
  | c :: cs =>
    let n := c.ra.inverseMap prev.written c.idx
    if n = c.idx then { c with read := prev.written } :: cs
    else
      let c' := { c with read := prev.written, idx := n, written := c.wa.map n }
      c' :: bwd c' cs

/-- DependencyGraph.h:680-707, `restrictPathIndicesForward`. -/
def restrictForward (path : List Dep) (k : Nat) : List Dep :=
  match path.drop k with
  | [] => path
  | x :: post => path.take k ++ x :: fwd x post

/-- DependencyGraph.h:709-739, `restrictPathIndicesBackward`. -/
def restrictBackward (path : List Dep) (k : Nat) : List Dep :=
  match path.drop k with
  | [] => path
  | x :: post => (bwd x (path.take k).reverse).reverse ++ x :: post

/-- DependencyGraph.h:741-778, `extractCycleIfAny`. -/
def extract (path : List Dep) (e : Nat) (idx : Finset Point) : Option (List Dep) :=
  if path.length ≤ 1 then none
  else
    match path.dropWhile fun d => !(d.eq == e && decide (d.idx ∩ idx ≠ ∅)) with
    | [] => none
    | c => if c.all fun d => some d.eq == path.head?.map Dep.eq then none else some c

/-- DependencyGraph.h:527-538: the write accesses that are considered, with the written indices. -/
def activeWrites (idx : Finset Point) : Finset Point → List Acc → List (Acc × Finset Point)
  | _, [] => []
  | seen, a :: as =>
    if a.map idx ⊆ seen then activeWrites idx seen as
    else (a, a.map idx) :: activeWrites idx (seen ∪ a.map idx) as

/-- DependencyGraph.h:553-572: the read accesses, given the written indices. -/
def readAccesses (e : Eqn) (idx w : Finset Point) : List Acc :=
  e.reads ++ e.writes.filter fun a => a.map idx \ w ≠ ∅

/-- One call of the function object of DependencyGraph.h:596-656. -/
structure Job where
  wa : Acc
  written : Finset Point
  ra : Acc
  read : Finset Point
  target : WInfo

/-- DependencyGraph.h:529-596: the calls of the function object, in order. -/
def jobs (rep : Rep) (m : Nat → List WInfo) (e : Eqn) (idx : Finset Point) : List Job :=
  (activeWrites idx ∅ e.writes).flatMap fun (wa, w) => (readAccesses e idx w).flatMap fun ra =>
    let r := if ra.var = wa.var then ra.map idx \ w else ra.map idx
    (rep.walk r (m ra.var)).map fun t => ⟨wa, w, ra, r, t⟩

/-- DependencyGraph.h:664-678, `getWritingEquationIndices`. -/
def writingIndices (e : Eqn) (vs : Finset Point) : Finset Point :=
  e.writes.foldl (fun s a => s ∪ a.inverseMap vs e.it) ∅

/-- The cycles found and `visitedEquationIndices`. -/
structure St where
  cycles : List (List Dep)
  vis : Nat → Finset Point

/-- DependencyGraph.h:644-647: the indices of a cycle are visited. -/
def markVisited (vis : Nat → Finset Point) (c : List Dep) : Nat → Finset Point :=
  c.foldl (fun vis d e => if e = d.eq then vis e ∪ d.idx else vis e) vis

/-- DependencyGraph.h:640-650: a cycle that has been found is recorded. -/
def record (st : St) : Option (List Dep) → St
  | none => st
  | some c => ⟨st.cycles ++ [c], markVisited st.vis c⟩

/-- DependencyGraph.h:517-660, the recursive `getEquationsCycles`. -/
def dfs (eqs : Nat → Eqn) (rep : Rep) (m : Nat → List WInfo) :
    Nat → St → Nat → Finset Point → List Dep → Option St
  | 0, _, _, _, _ => none
  | fuel + 1, st, e, idx, path =>
    (jobs rep m (eqs e) idx).foldlM (fun st j =>
      let inter := j.read ∩ j.target.box
      let w := writingIndices (eqs j.target.eq) inter \ st.vis j.target.eq
      if w = ∅ then some st
      else
        let ext := restrictBackward (path ++ [⟨e, idx, j.wa, j.written, j.ra, inter⟩]) path.length
        dfs eqs rep m fuel (record st (extract ext j.target.eq w)) j.target.eq w ext) st

/-- DependencyGraph.h:371-375 with 495-515: the search from each equation. -/
def search (eqs : Nat → Eqn) (rep : Rep) (m : Nat → List WInfo) (fuel : Nat) :
    St → List Nat → Option St
  | st, [] => some st
  | st, e :: es =>
    if (eqs e).it \ st.vis e = ∅ then search eqs rep m fuel st es
    else (dfs eqs rep m fuel st e ((eqs e).it \ st.vis e) []).bind fun st =>
      search eqs rep m fuel st es

/-- DependencyGraph.h:867-872, `setEquationIndices`. -/
def setIdx (d : Dep) (s : Finset Point) : Dep :=
  { d with idx := s, written := d.wa.map s, read := d.ra.map s }

/-- DependencyGraph.h:851-856 and 858-863: restrict a cycle to some indices of a node. -/
def setAt (c : List Dep) (k : Nat) (s : Finset Point) : List Dep :=
  restrictBackward (restrictForward (c.modify k fun d => setIdx d s) k) k

/-- DependencyGraph.h:822-832: the node has to be split. -/
def Dep.cut (e : Nat) (idx : Finset Point) (d : Dep) : Bool :=
  d.eq == e && decide (d.idx ∩ idx ≠ ∅) && !decide (d.idx ⊆ idx)

/-- DependencyGraph.h:816-865, `splitCycle`. (The worklist is a stack.) -/
def splitCycleGo (e : Nat) (idx : Finset Point) : Nat → List Dep → List (List Dep)
  | 0, c => [c]
  | n + 1, c =>
    match c.findIdx? (Dep.cut e idx) with
    | none => [c]
    | some k =>
      match c[k]? with
      | none => [c]
      | some d =>
        splitCycleGo e idx n (setAt c k (d.idx ∩ idx)) ++
          splitCycleGo e idx n (setAt c k (d.idx \ (d.idx ∩ idx)))

/-- DependencyGraph.h:816-865, `splitCycle`. Every split makes the number of the nodes to be split
smaller (`splitCycle_not_cut`). -/
def splitCycle (d : Dep) (c : List Dep) : List (List Dep) :=
  splitCycleGo d.eq d.idx (c.length + 1) c

/-- DependencyGraph.h:780-812, `addCycleAndSplit`. -/
def addCycleAndSplit (cycles : List (List Dep)) (new : List Dep) : List (List Dep) :=
  let cycles := new.foldl (fun cs d => cs.flatMap (splitCycle d)) cycles
  let news := cycles.flatten.foldl (fun ns d => ns.flatMap (splitCycle d)) [new]
  cycles ++ news

/-- `EquationView`. -/
abbrev View := Nat × Finset Point

/-- The view of a node. -/
def Dep.view (d : Dep) : View := (d.eq, d.idx)

/-- DependencyGraph.h:377-381. -/
def partition (cycles : List (List Dep)) : List (List Dep) := cycles.foldl addCycleAndSplit []

/-- DependencyGraph.h:393-404: the vertices. The keys of `partitionsMap` are compared by their points;
the hash of an index set, which depends on the stored ranges (C49), is not considered. -/
def vertices (part : List (List Dep)) : List View := (part.flatten.map Dep.view).dedup

/-- DependencyGraph.h:408-418: the edges of a cycle. -/
def cycleEdges (c : List Dep) : List (View × View) :=
  let vs := c.map Dep.view
  vs.zip (vs.tail ++ vs.take 1)

/-- DependencyGraph.h:406-419: the edges. -/
def edges (part : List (List Dep)) : List (View × View) := part.flatMap cycleEdges

/-- DependencyGraph.h:443-457: the components of the indices that are in no cycle. -/
def remaining (eqs : Nat → Eqn) (st : St) (scc : List Nat) : List (List View) :=
  (scc.filter fun e => (eqs e).it \ st.vis e ≠ ∅).map fun e => [(e, (eqs e).it \ st.vis e)]

/-- What `llvm::scc_iterator` enumerates (without the entry node): the classes of vertices that reach
each other. -/
structure IsSCCs (vs : List View) (es : List (View × View)) (out : List (List View)) : Prop where
  perm : out.flatten.Perm vs
  nonempty : ∀ c ∈ out, c ≠ []
  same : ∀ u ∈ vs, ∀ v ∈ vs, (∃ c ∈ out, u ∈ c ∧ v ∈ c) ↔
    Relation.ReflTransGen (fun a b => (a, b) ∈ es) u v ∧
    Relation.ReflTransGen (fun a b => (a, b) ∈ es) v u

/-- DependencyGraph.h:334-458, the function `processFn` of `getSCCs`, for one component of the array
dependency graph: `out` are the components that it may add to the result. -/
def ProcessScc (eqs : Nat → Eqn) (rep : Rep) (fuel : Nat) (scc : List Nat)
    (out : List (List View)) : Prop :=
  ∃ st comps, search eqs rep (writesMap eqs rep scc) fuel ⟨[], fun _ => ∅⟩ scc = some st ∧
    IsSCCs (vertices (partition st.cycles)) (edges (partition st.cycles)) comps ∧
    out = comps ++ remaining eqs st scc

/-- DependencyGraph.h:328-462, `getSCCs`, given the components of the array dependency graph. (The
threads may add theirs in any order.) -/
def GetSCCs (eqs : Nat → Eqn) (rep : Rep) (fuel : Nat) (sccs : List (List Nat))
    (out : List (List View)) : Prop :=
  ∃ outs : List (List (List View)), List.Forall₂ (ProcessScc eqs rep fuel) sccs outs ∧
    out.Perm outs.flatten

end Marco.Cycles
