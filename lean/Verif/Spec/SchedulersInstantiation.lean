import Verif.Model.SchedulersInstantiation
import Mathlib.Data.List.Forall2

/-!
# Specification of the instantiation of the schedulers
-/

namespace Marco.Spec.SchedInst
open Marco Marco.SchedInst
variable {O : Type}

/-- The operations in the blocks of a region. -/
def opsOf : RegionOp O → List (Op O)
  | .group g => g.flatMap fun
    | .block b => b.body
    | .other _ => []
  | .block b => b.body
  | .other _ => []

/-- The schedules before the pass: no scheduler is run, the functions that are called exist, and the ranges of a call have
the same rank. -/
def Input (m : Module O) (l : List (Sched O)) : Prop :=
  ∀ p, ∀ r ∈ regions p l, ∀ o ∈ r, ∀ x ∈ opsOf o,
    match x with
    | .run _ => False
    | .call c => c.callee ∈ m.functions ∧ ∀ b ∈ c.indices, b.length = rank c.indices
    | .other _ => True

/-- The module before the pass: no schedulers and no wrappers. -/
def Plain (m : Module O) : Prop :=
  m.wrappers = [] ∧ (∀ p, ∀ x ∈ (m.begins p).flatten, ∃ o, x = .other o) ∧ (∀ p, ∀ x ∈ (m.ends p).flatten, ∃ o, x = .other o)

/-- The operations of a region happen in the same order; within an operation, which may be a group of independent blocks, the
same things happen in some order. -/
def SameRuns (before after : List (List (Event O))) : Prop := List.Forall₂ List.Perm before after

/-- A block that only calls the function of an equation. -/
def OnlyCall (b : Block O) : Prop := ∃ c, b.body = [.call c]

end Marco.Spec.SchedInst
