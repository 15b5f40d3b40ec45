import Verif.Model.AccessFunction

/-!
# Model of the dependency graphs among equations
(`/repo/include/marco/Modeling/ArrayEquationsDependencyGraph.h`,
`/repo/include/marco/Modeling/ScalarEquationsDependencyGraph.h`)

An equation is identified by its position in the list that is given to `addEquations`, a variable by
a number. The R-tree of a writes map is the list of its entries (C15 is about the walk over
overlapping objects); `+=` on index sets is the union. The equations are processed by several
threads (`mlir::parallelForEach`): the insertions of the entries of an equation are done with the
mutex of the map taken, so that the map is the result of processing the equations in some order; the
insertions of the edges are done one at a time, so that the edges are inserted in some order. A run
is given by these two orders. Only the set of the edges matters.
-/

namespace Marco.DepGraph
open Marco

/-- An array equation: the iteration space, and the accesses written and read. -/
structure ArrEq where
  it : IndexSet
  writes : List (Nat × AccessFn)
  reads : List (Nat × AccessFn)

/-- `WriteInfo` (include/marco/Modeling/Dependency.h): the entries of the R-trees, with the variable
under which they are stored. -/
structure WInfo where
  var : Nat
  box : Box
  eq : Nat
  deriving DecidableEq, Repr

/-- ArrayEquationsDependencyGraph.h:209-215: the union of the written indices. -/
def written (e : ArrEq) : Option IndexSet :=
  e.writes.foldlM (fun acc w => (w.2.mapSet e.it).map acc.union) IndexSet.empty

/-- ArrayEquationsDependencyGraph.h:206-226, `mapWrite`: all entries go under the variable of the
first write access. -/
def mapWrite (eqs : List ArrEq) (m : List WInfo) (i : Nat) : Option (List WInfo) := do
  let e ← eqs[i]?
  match e.writes with
  | [] => some m
  | (v, _) :: _ =>
    let w ← written e
    some (m ++ w.ranges.map fun b => ⟨v, b, i⟩)

/-- ArrayEquationsDependencyGraph.h:164-187, `addEquationsAndMapWrites`, for a processing order. -/
def mapWrites (eqs : List ArrEq) (order : List Nat) : Option (List WInfo) :=
  order.foldlM (mapWrite eqs) []

/-- `readVariables[v] += s` on a `llvm::MapVector` (ArrayEquationsDependencyGraph.h:250). -/
def addRead : List (Nat × IndexSet) → Nat → IndexSet → List (Nat × IndexSet)
  | [], v, s => [(v, IndexSet.empty.union s)]
  | (v', s') :: l, v, s => if v' = v then (v', s'.union s) :: l else (v', s') :: addRead l v s

/-- ArrayEquationsDependencyGraph.h:241-251: the read variables with their indices. -/
def readVariables (e : ArrEq) : Option (List (Nat × IndexSet)) :=
  e.reads.foldlM (fun acc r => (r.2.mapSet e.it).map (addRead acc r.1)) []

/-- ArrayEquationsDependencyGraph.h:253-276: the edges leaving an equation, given the writes map. -/
def edgesOf (m : List WInfo) (i : Nat) (e : ArrEq) : Option (List (Nat × Nat)) := do
  let rv ← readVariables e
  some (rv.flatMap fun (v, s) => s.ranges.flatMap fun r =>
    ((m.filter fun w => w.var == v && w.box.overlaps r).filter fun w => s.overlapsBox w.box).map
      fun w => (i, w.eq))

/-- The edges of all equations, equation by equation. -/
def allEdges (m : List WInfo) : Nat → List ArrEq → Option (List (Nat × Nat))
  | _, [] => some []
  | i, e :: es => do
    let a ← edgesOf m i e
    let b ← allEdges m (i + 1) es
    some (a ++ b)

/-- ArrayEquationsDependencyGraph.h:94-102, `addEquations`: `edges` are the edges in the order in
which they are inserted in a run in which the equations are entered in the map in the given order. -/
def ArrayRun (eqs : List ArrEq) (order : List Nat) (edges : List (Nat × Nat)) : Prop :=
  order.Perm (List.range eqs.length) ∧
  ∃ m es, mapWrites eqs order = some m ∧ allEdges m 0 eqs = some es ∧ edges.Perm es

/-! ### Scalar equations -/

/-- ScalarEquationsDependencyGraph.h:287-298, `getAccessWithProperty` with the preference for affine
accesses (lines 174-177). -/
def preferredWrite (ws : List (Nat × AccessFn)) : Option (Nat × AccessFn) :=
  (ws.find? fun w => w.2.isAffine).or ws.head?

/-- An entry of the writes map of scalar equations. -/
structure SWInfo where
  var : Nat
  box : Box
  eq : Nat × Point

/-- ScalarEquationsDependencyGraph.h:181-201: the entries of the scalar equations of an array
equation. -/
def scalarEntries (i : Nat) (e : ArrEq) : Option (List SWInfo) :=
  match preferredWrite e.writes with
  | none => some []
  | some (v, f) => e.it.points.foldlM (fun acc p =>
      (f.mapPoint p).map fun t => acc ++ t.ranges.map fun b => ⟨v, b, (i, p)⟩) []

/-- ScalarEquationsDependencyGraph.h:158-206, `addEquationsAndMapWrites`, for a processing order
(the entries of different array equations may be interleaved; it has no influence on the set). -/
def scalarWrites (eqs : List ArrEq) (order : List Nat) : Option (List SWInfo) :=
  order.foldlM (fun m i => do
    let e ← eqs[i]?
    let l ← scalarEntries i e
    some (m ++ l)) []

/-- The scalar equations that are vertices of the graph (lines 170-172 and 181-188: array equations
without write accesses are skipped). -/
def scalarVertices (eqs : List ArrEq) : List (Nat × Point) :=
  (List.range eqs.length).flatMap fun i =>
    match eqs[i]? with
    | some e => if e.writes.isEmpty then [] else e.it.points.map fun p => (i, p)
    | none => []

/-- ScalarEquationsDependencyGraph.h:250-281: the edges leaving a scalar equation. `==` between an
index set and a range converts the range to an index set. -/
def scalarEdgesOf (m : List SWInfo) (e : ArrEq) (x : Nat × Point) :
    Option (List ((Nat × Point) × (Nat × Point))) :=
  e.reads.foldlM (fun acc r => (r.2.mapPoint x.2).map fun s => acc ++
    s.ranges.flatMap fun b =>
      ((m.filter fun w => w.var == r.1 && w.box.overlaps b).filter fun w =>
        s.eq (IndexSet.ofRanges [w.box])).map fun w => (x, w.eq)) []

/-- The edges of all scalar equations. -/
def allScalarEdges (eqs : List ArrEq) (m : List SWInfo) :
    List (Nat × Point) → Option (List ((Nat × Point) × (Nat × Point)))
  | [] => some []
  | x :: xs => do
    let e ← eqs[x.1]?
    let a ← scalarEdgesOf m e x
    let b ← allScalarEdges eqs m xs
    some (a ++ b)

/-- ScalarEquationsDependencyGraph.h:122-130, `addEquations`. -/
def ScalarRun (eqs : List ArrEq) (order : List Nat)
    (edges : List ((Nat × Point) × (Nat × Point))) : Prop :=
  order.Perm (List.range eqs.length) ∧
  ∃ m es, scalarWrites eqs order = some m ∧
    allScalarEdges eqs m (scalarVertices eqs) = some es ∧ edges.Perm es

end Marco.DepGraph
