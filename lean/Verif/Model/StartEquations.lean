import Verif.Model.Parallelize

/-!
# Model of the placement of the start equations
(`/repo/lib/Dialect/BaseModelica/Transforms/InitialConditionsSolving.cpp`,
`/repo/lib/Dialect/BaseModelica/Transforms/Scheduling.cpp` and
`/repo/lib/Dialect/BaseModelica/Transforms/Modeling/SCCBridge.cpp`)

The schedule of the initial conditions contains the SCCs of the initial equations and the start
equations, which assign to the variables their `start` values. An SCC and a start equation are given
by the elements they read and write (`Marco.Par.Blk`); the SCCs are in the order computed by the
scheduler. The accesses and the access functions are not modelled.
-/

namespace Marco.StartEqs
open Marco.Par

/-- An operation in the block of the schedule: an SCC, or a start equation. The start equations are
numbered in the order of the `StartOp`s they come from. -/
inductive Item where
  | scc (i : ℕ)
  | start (j : ℕ)
  deriving DecidableEq, Repr

/-- Scheduling.cpp:456-500: the last SCC writing something the start equation reads. -/
def lastDependency (sccs : List Blk) (s : Blk) : Option ℕ :=
  (s.reads.flatMap (getWrites sccs)).foldl (fun last i =>
    match last with
    | none => some i
    | some l => if l < i then some i else some l) none

/-- Scheduling.cpp:435-451: the first SCC writing a variable. The start equation writes all the
indices of its variable (InitialConditionsSolving.cpp:127). -/
def firstWriting (sccs : List Blk) (a : Access) : Option ℕ :=
  (getWrites sccs a).foldl (fun first i =>
    match first with
    | none => some i
    | some f => if i < f then some i else some f) none

/-- `setInsertionPointAfter` and `clone`. -/
def insertAfter (x y : Item) : List Item → List Item
  | [] => []
  | z :: zs => if z = x then z :: y :: zs else z :: insertAfter x y zs

/-- Scheduling.cpp:506-543: one start equation. -/
def insertStart (sccs : List Blk) (block : List Item) (js : ℕ × Blk) : List Item :=
  match lastDependency sccs js.2 with
  | none => .start js.1 :: block
  | some k => insertAfter (.scc k) (.start js.1) block

/-- Scheduling.cpp:409-547, after the SCCs have been created in the block (lines 333-398). -/
def addStartEquations (sccs : List Blk) (starts : List (ℕ × Blk)) : List Item :=
  starts.foldl (insertStart sccs) ((List.range sccs.length).map .scc)

/-- Scheduling.cpp:523-538: the start equations for which the warning is emitted. -/
def warned (sccs : List Blk) (s : Blk) : Bool :=
  match lastDependency sccs s, s.writes.head?.bind (firstWriting sccs) with
  | some l, some f => !decide (l < f)
  | _, _ => false

/-- InitialConditionsSolving.cpp:104-128: each start equation is created at the beginning of the
block, so that they are in the reverse order. -/
def created (starts : List Blk) : List (ℕ × Blk) :=
  starts.foldl (fun l s => (l.length, s) :: l) []

/-- Scheduling.cpp:182-221 for the schedule created by InitialConditionsSolving.cpp:171-191. Without
SCCs the block is left as it is (line 198). -/
def initialSchedule (sccs starts : List Blk) : List Item :=
  if sccs.isEmpty then (created starts).map fun js => .start js.1
  else addStartEquations sccs (created starts)

/-- `SCCTraits<SCCBridge *>::getDependencies` (SCCBridge.cpp:44-178): the SCCs that are to come before an
SCC. They are those writing what it reads, and those writing what is read by the start equations that
write the same elements. -/
def dependencies (sccs starts : List Blk) (b : Blk) : List ℕ :=
  b.reads.flatMap (getWrites sccs) ++
    (b.writes.flatMap (getWrites starts)).flatMap fun j =>
      ((starts[j]?.map (·.reads)).getD []).flatMap (getWrites sccs)

end Marco.StartEqs
