import Mathlib.Data.Fintype.List
import Verif.Model.EquationSplit

/-!
# Model of the promotion of variables to parameters
(`/repo/lib/Dialect/BaseModelica/Transforms/VariablesPromotion.cpp`, and `WritesMap` of
`/repo/include/marco/Dialect/BaseModelica/IR/Dialect.h`)

Variables are numbers. As in `Verif/Model/EquationSplit.lean` index sets are finite sets of points.
A scalar variable has no indices, and an access to it reaches the empty set; arrays without elements
are not considered. The strongly connected components, and the order in which they are visited, are
an argument, and so is the order in which the write accesses are sorted. The equations of the main
model are known by their position.
-/

namespace Marco.Promo
open Marco Split

/-- `EquationInstanceOp`; `usesTime` tells whether there is a `TimeOp` in the template. -/
structure Eqn (β : Type) extends Inst β where
  usesTime : Bool

/-- `ModelOp`: for each variable its indices (`VariableOp::getIndices`, Ops.cpp:1513-1527), whether it
is read-only and whether it is the derivative of another one, and the equations. -/
structure Model (β : Type) where
  numVars : Nat
  indices : Nat → Finset Point
  readOnly : Nat → Bool
  derivative : Nat → Bool
  initial : List (Eqn β)
  main : List (Eqn β)

variable {β : Type}

/-- `VariableType::isScalar`. -/
def Model.scalar (m : Model β) (v : Nat) : Bool := decide (m.indices v = ∅)

/-- `accessFunction.map(equationIndices)`, where an access to a scalar has no results
(AccessFunctionEmpty.cpp:60-62). -/
def accessed (m : Model β) (e : Inst β) (a : Access) (s : Finset Point) : Finset Point :=
  if m.scalar a.var then ∅ else image a.fn (e.dims == 0) s

/-- Ops.cpp:8196-8217, `EquationTemplateOp::getWriteAccesses`. -/
def writeAccesses (m : Model β) (e : Inst β) : List Access :=
  e.accesses.filter fun a => decide (a.var = e.matched) &&
    ((decide (e.matchedIndices = ∅) && decide (accessed m e a e.indices = ∅)) ||
      decide (accessed m e a e.indices ⊆ e.matchedIndices))

/-- An entry of `WritesMap` (Dialect.h:86-98): the entries of the `ScalarMap` have no indices. -/
structure Write (ι : Type) where
  var : Nat
  indices : Finset Point
  writer : ι

/-- Dialect.cpp:658-677: the variable indices that an equation writes. -/
def written (m : Model β) (e : Inst β) : Finset Point :=
  (writeAccesses m e).foldl (fun acc a => acc ∪ accessed m e a e.indices) ∅

/-- Dialect.cpp:647-683, `getWritesMap`. The variable is that of the first write access, which is the
matched one; for an equation without write accesses the behaviour is undefined, and the entry here
has no meaning. -/
def writesMap {ι : Type} (m : Model β) (es : List (ι × Eqn β)) : List (Write ι) :=
  es.map fun x => ⟨x.2.matched, written m x.2.toInst, x.1⟩

/-- Dialect.h:130-164, `WritesMap::getWrites`. In the `ScalarMap` a new entry replaces the one for the
same variable. -/
def getWrites {ι : Type} (w : List (Write ι)) (v : Nat) (s : Finset Point) : List ι :=
  if s = ∅ then
    ((w.filter fun x => decide (x.var = v) && decide (x.indices = ∅)).getLast?.map Write.writer).toList
  else (w.filter fun x => decide (x.var = v) && decide (x.indices ∩ s ≠ ∅)).map Write.writer

/-- Dialect.h:178-180, `WritesMap::isWritten`. -/
def isWritten {ι : Type} (w : List (Write ι)) (v : Nat) : Bool := w.any fun x => decide (x.var = v)

/-- Dialect.h:182-198, `WritesMap::getWrittenIndices`; no indices if there are no writes. -/
def writtenIndices {ι : Type} (w : List (Write ι)) (v : Nat) : Finset Point :=
  (w.filter fun x => decide (x.var = v)).foldl (fun acc x => acc ∪ x.indices) ∅

/-- An equation of the main model. -/
abbrev Pos (m : Model β) := Fin m.main.length

/-- VariablesPromotion.cpp:326-332: the writes map of the main model. -/
def mainWrites (m : Model β) : List (Write (Pos m)) :=
  writesMap m ((List.finRange m.main.length).map fun k => (k, m.main.get k))

/-- VariablesPromotion.cpp:316-324: the writes map of the initial conditions. -/
def initialWrites (m : Model β) : List (Write Unit) :=
  writesMap m (m.initial.map fun e => ((), e))

/-- VariablesPromotion.cpp:450-491: the check of one access of an equation. -/
def accessOk (m : Model β) (done scc : List (Pos m)) (e : Eqn β) (a : Access) : Bool :=
  m.readOnly a.var ||
    let ws := getWrites (mainWrites m) a.var (accessed m e.toInst a e.indices)
    !ws.isEmpty && ws.all fun k => decide (k ∈ done) || decide (k ∈ scc)

/-- VariablesPromotion.cpp:418-492: whether the equations of the component can be promoted. -/
def sccOk (m : Model β) (done scc : List (Pos m)) : Bool :=
  scc.all fun k =>
    let e := m.main.get k
    !e.usesTime && !m.derivative e.matched && e.accesses.all (accessOk m done scc e)

/-- VariablesPromotion.cpp:400-515: the equations that can be promoted. -/
def promotable (m : Model β) (sccs : List (List (Pos m))) : List (Pos m) :=
  sccs.foldl (fun done scc => if sccOk m done scc then done ++ scc else done) []

/-- VariablesPromotion.cpp:511-512: the indices of a variable that can be promoted. -/
def promotableIndices (m : Model β) (done : List (Pos m)) (v : Nat) : Finset Point :=
  (done.filter fun k => decide ((m.main.get k).matched = v)).foldl
    (fun acc k => acc ∪ (m.main.get k).matchedIndices) ∅

/-- VariablesPromotion.cpp:517-529: the variables to be promoted. -/
def promoted (m : Model β) (sccs : List (List (Pos m))) : List Nat :=
  let done := promotable m sccs
  (List.range m.numVars).filter fun v =>
    decide (∃ k ∈ done, (m.main.get k).matched = v) &&
      decide (m.indices v = promotableIndices m done v)

/-- VariablesPromotion.cpp:551-565: the indices handled only by equations of the main model. -/
def mainOnly (m : Model β) (v : Nat) : Finset Point :=
  writtenIndices (mainWrites m) v \ writtenIndices (initialWrites m) v

/-- Ops.cpp:10015-10056, `EquationInstanceOp::setIndices`. -/
def setIndices (m : Model β) (e : Eqn β) (s : Finset Point) : Eqn β :=
  if s = e.indices then e
  else { e with
    indices := s
    matchedIndices := (writeAccesses m e.toInst).foldl
      (fun acc a => acc ∪ accessed m e.toInst a s) ∅ }

/-- VariablesPromotion.cpp:603-618: whether an initial equation is created. -/
def wanted (m : Model β) (v : Nat) (e : Eqn β) : Bool :=
  if m.scalar v then !isWritten (initialWrites m) v
  else decide (e.matchedIndices ∩ mainOnly m v ≠ ∅) && decide (e.indices ≠ ∅)

/-- VariablesPromotion.cpp:571-637: the initial equation created for an equation of the main model. The
write accesses are sorted by `sort`. -/
def created (m : Model β) (sort : List Access → List Access) (v : Nat) (e : Eqn β) :
    List (Eqn β) :=
  if wanted m v e then
    match sort (writeAccesses m e.toInst) with
    | [] => []
    | a :: _ => [setIndices m e (preimage a.fn (e.matchedIndices ∩ mainOnly m v) e.indices)]
  else []

/-- VariablesPromotion.cpp:567-569: the equations that are turned into initial ones. -/
def moved (m : Model β) (v : Nat) : List (Pos m) := getWrites (mainWrites m) v (mainOnly m v)

/-- VariablesPromotion.cpp:298-649, `processModelOp`. -/
def promote (m : Model β) (sort : List Access → List Access) (sccs : List (List (Pos m))) :
    Model β :=
  let vs := promoted m sccs
  { m with
    readOnly := fun v => m.readOnly v || decide (v ∈ vs)
    initial := m.initial ++ vs.flatMap fun v => (moved m v).flatMap fun k =>
      created m sort v (m.main.get k)
    main := ((List.finRange m.main.length).filter fun k =>
      decide (∀ v ∈ vs, k ∉ moved m v)).map m.main.get }

end Marco.Promo
