import Verif.Model.CycleSolving

/-!
# Model of the replacement of the variables that IDA does not handle
(`/repo/lib/Dialect/BaseModelica/Transforms/IDA.cpp`, `addEquationsToIDA`, with `WritesMap` of
`/repo/include/marco/Dialect/BaseModelica/IR/Dialect.h`)

The equations and the replacement of an access within them are those of C76
(`Verif/Model/CycleSolving.lean`, with the same simplifications: equations between scalars, no reductions,
exact index sets). The writing equations are in the order in which they are found.
-/

namespace Marco.IdaRep
open Marco Marco.Subst

/-- An access within a side: the path, the variable, the subscripts. -/
abbrev Acc := List Bool × Nat × List DimAccess

/-- `searchAccesses` within a side, in the order of the operands: Ops.cpp:8296-8318 (the operations ask their operands in turn). -/
def accessesIn : Expr → List Acc
  | .var v subs => [([], v, subs)]
  | .ind _ => []
  | .cst _ => []
  | .op _ a b => (accessesIn a).map (fun x => (false :: x.1, x.2)) ++
      (accessesIn b).map fun x => (true :: x.1, x.2)

/-- `EquationTemplateOp::getAccesses`: Ops.cpp:8170-8194. -/
def accesses (t : Template) : List (Path × Nat × List DimAccess) :=
  (accessesIn t.lhs).map (fun x => (⟨false, x.1⟩, x.2)) ++ (accessesIn t.rhs).map fun x => (⟨true, x.1⟩, x.2)

/-- The indices of a variable that are written by an equation, those matched: Ops.cpp:10022-10049,
Dialect.cpp:669-674. None for a scalar variable. -/
def written (w : Inst) : Finset Point := writtenBy w.written w.tmpl.inds w.indices

/-- `EquationInstanceOp::getReadAccesses`: Ops.cpp:8219-8240. -/
def reads (op : Inst) : List (Path × Nat × List DimAccess) := (accesses op.tmpl).filter fun a =>
  let accessed := writtenBy a.2.2 op.tmpl.inds op.indices
  decide (a.2.1 ≠ op.writes) ||
    (decide (written op ≠ ∅) && decide (accessed ≠ ∅) && !decide (accessed ⊆ written op))

/-- `WritesMap::getWrites`, Dialect.h:130-164, with `addWrite`, Dialect.h:166-176: for a scalar variable the
last equation that was added, otherwise the equations that write an index that is accessed. -/
def writesTo (writers : List Inst) (v : Nat) (accessed : Finset Point) : List Inst :=
  if accessed = ∅ then
    (writers.filter fun w => decide (w.writes = v) && decide (written w = ∅)).getLast?.toList
  else writers.filter fun w => decide (w.writes = v) && decide (written w ∩ accessed ≠ ∅)

/-- The replacement by one of the writing equations: IDA.cpp:609-669. -/
def replaceBy (S : Simplifier) (rep : Finset Point → List (Finset Point)) (explicitate : Inst → Option Template)
    (op : Inst) (a : Path × Nat × List DimAccess) (w : Inst) : Option (List Inst) :=
  match explicitate w with
  | none => none
  | some x =>
    let accessed := writtenBy a.2.2 op.tmpl.inds op.indices
    let given := if op.indices = ∅ then ∅
      else op.indices ∩ readingIndices a.2.2 (accessed ∩ written w) op.indices
    cloneWithReplacedAccess S rep op given a.1 x

/-- What becomes of an equation. -/
inductive Step where
  | fails
  /-- There is nothing to be replaced. -/
  | independent
  /-- It is replaced by these. -/
  | replaced (l : List Inst)

/-- An iteration, but for the list of the equations: IDA.cpp:501-677. The first access to a variable with writing
equations is replaced. -/
def step (S : Simplifier) (rep : Finset Point → List (Finset Point)) (explicitate : Inst → Option Template)
    (writers : List Inst) (op : Inst) : Step :=
  let found := fun (a : Path × Nat × List DimAccess) =>
    writesTo writers a.2.1 (writtenBy a.2.2 op.tmpl.inds op.indices)
  match (reads op).find? fun a => !(found a).isEmpty with
  | none => .independent
  | some a => match (found a).mapM (replaceBy S rep explicitate op a) with
    | none => .fails
    | some ls => .replaced ls.flatten

/-- The outcome of the loop. -/
inductive Outcome where
  | fails
  /-- It has not ended. -/
  | running
  | done (l : List Inst)

/-- The loop, for a number of iterations: IDA.cpp:501-677. The equations to be processed are taken from the end of
their list, here from its start. -/
def loop (S : Simplifier) (rep : Finset Point → List (Finset Point)) (explicitate : Inst → Option Template)
    (writers : List Inst) : Nat → List Inst → List Inst → Outcome
  | _, [], out => .done out
  | 0, _ :: _, _ => .running
  | k + 1, op :: ops, out => match step S rep explicitate writers op with
    | .fails => .fails
    | .independent => loop S rep explicitate writers k ops (out ++ [op])
    | .replaced l => loop S rep explicitate writers k (l.reverse ++ ops) out

/-- `addEquationsToIDA`, the replacement of the variables that IDA does not handle: IDA.cpp:463-681. -/
def replaceAll (S : Simplifier) (rep : Finset Point → List (Finset Point)) (explicitate : Inst → Option Template)
    (writers : List Inst) (k : Nat) (equations : List Inst) : Outcome :=
  loop S rep explicitate writers k equations.reverse []

end Marco.IdaRep
