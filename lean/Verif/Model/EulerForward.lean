import Verif.Model.Parallelize
import Mathlib.Algebra.Field.Defs

/-!
# Model of the forward Euler method
(`/repo/lib/Dialect/BaseModelica/Transforms/EulerForward.cpp`)

The pass creates one schedule block for each state. The blocks are then grouped by the schedule
parallelization (`Marco.Par`), and the blocks of a group are executed in parallel. The memory maps
the elements of the variables to numbers of a field (no rounding). `updateNonStateVariables`, which
gets all the components of the main model unchanged (lines 118-157), is not modelled.
-/

namespace Marco.Euler

/-- `ModelOp`: the variables with their shapes (empty for a scalar), in their order, and
`DerivativesMap` (state, derivative). -/
structure Model where
  vars : List (String × List ℕ)
  derivatives : List (String × String)
  deriving DecidableEq, Repr

namespace Model
variable (m : Model)

/-- DerivativesMap.cpp:397-406. -/
def getDerivative (v : String) : Option String :=
  (m.derivatives.find? (·.1 == v)).map (·.2)

/-- EulerForward.cpp:192-208: `stateVariables` and `derivativeVariables`, kept in sync. -/
def updates : List (String × String) :=
  m.vars.filterMap fun v => (m.getDerivative v.1).map fun d => (v.1, d)

/-- The symbol as a number, its position among the variables. -/
def number (v : String) : ℕ := (m.vars.map (·.1)).idxOf v

/-- The shape of the type of a variable. -/
def shape (v : String) : List ℕ := ((m.vars.find? (·.1 == v)).map (·.2)).getD []

end Model

/-- `VariableOp::getIndices` (lib/Dialect/BaseModelica/IR/Ops.cpp:1513-1527): the stored ranges. -/
def indices (shape : List ℕ) : List Box :=
  if shape.isEmpty then [] else [shape.map fun n : ℕ => ⟨0, n⟩]

/-- EulerForward.cpp:255-265, 279-280 and 435-443: the accesses of the block of a state. The indices
are those of the state for both. -/
def block (m : Model) (u : String × String) : Par.Blk where
  reads := [⟨m.number u.2, indices (m.shape u.1)⟩]
  writes := [⟨m.number u.1, indices (m.shape u.1)⟩]

/-- EulerForward.cpp:226-241: the blocks, in the order in which they are created. -/
def blocks (m : Model) : List Par.Blk := m.updates.map (block m)

/-- The points of the loop nest of EulerForward.cpp:350-374, and the elements of the arrays in the
operations of lines 418-427; the empty point for a scalar. -/
def points : List ℕ → List Point
  | [] => [[]]
  | n :: ns => (List.range n).flatMap fun i : ℕ => (points ns).map fun p => (i : ℤ) :: p

/-- The update of one element of a state. -/
structure Task where
  state : String
  derivative : String
  point : Point
  deriving DecidableEq, Repr

/-- What a block does. -/
def tasks (m : Model) (u : String × String) : List Task :=
  (points (m.shape u.1)).map fun q => ⟨u.1, u.2, q⟩

/-- What the block at a position does. -/
def tasksAt (m : Model) (i : ℕ) : List Task :=
  (m.updates[i]?.map (tasks m)).getD []

variable {K : Type} [Field K]

/-- The values of the elements of the variables. -/
abbrev Env (K : Type) := String → Point → K

/-- EulerForward.cpp:311-323 (`rangedStateUpdateFunctions`) and 424-427: the new value. -/
def newValue (ranged : Bool) (h x d : K) : K :=
  if ranged then x + d * h else x + h * d

/-- EulerForward.cpp:325-337, 361-372 and 418-429. -/
def runTask (ranged : Bool) (h : K) (σ : Env K) (t : Task) : Env K := fun v r =>
  if v = t.state ∧ r = t.point then
    newValue ranged h (σ t.state t.point) (σ t.derivative t.point)
  else σ v r

/-- The updates in a given order. -/
def run (ranged : Bool) (h : K) (σ : Env K) (l : List Task) : Env K :=
  l.foldl (runTask ranged h) σ

/-- The orders in which groups of blocks may be executed: the groups in sequence, the elements of the
blocks of a group in any order. -/
inductive Execution (m : Model) : List (List ℕ) → List Task → Prop where
  | nil : Execution m [] []
  | cons {g : List ℕ} {gs : List (List ℕ)} {p l : List Task} :
      p.Perm (g.flatMap (tasksAt m)) → Execution m gs l → Execution m (g :: gs) (p ++ l)

/-- `updateStateVariables` (EulerForward.cpp:160-251) after the parallelization of its blocks with
the given limit: the possible results. -/
def Updates (m : Model) (ranged : Bool) (max : ℤ) (h : K) (σ σ' : Env K) : Prop :=
  ∃ gs l, Par.rewritten (blocks m) max = some gs ∧ Execution m gs l ∧ σ' = run ranged h σ l

end Marco.Euler
