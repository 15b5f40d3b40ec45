import Verif.Model.Promotion

/-!
# Model of the removal of unused variables
(`/repo/lib/Dialect/BaseModelica/Transforms/VariablesPruning.cpp`,
`/repo/include/marco/Modeling/ArrayVariablesDependencyGraph.h`)

The equations are those of `Verif/Model/Promotion.lean`. Of the start attributes and the binding
equations only the variables that they are about and that they read are kept. The vertices found by
`llvm::scc_begin` are those reachable from the entry node; here they are computed by repeatedly adding
the successors.
-/

namespace Marco.Prune
open Marco Split Promo

/-- `ModelOp` with the properties that the pass uses: the output variables, the two maps of
`DerivativesMap`, and the start and binding operations, each with the variable it is for and the
variables that occur in its body. -/
structure Model (β : Type) where
  base : Promo.Model β
  output : Nat → Bool
  derivative : Nat → Option Nat
  derived : Nat → Option Nat
  starts : List (Nat × List Nat)
  bindings : List (Nat × List Nat)

variable {β : Type}

/-- Ops.cpp:8219-8240, `EquationTemplateOp::getReadAccesses`. -/
def readAccesses (m : Promo.Model β) (e : Inst β) : List Access :=
  e.accesses.filter fun a => decide (a.var ≠ e.matched) ||
    (decide (e.matchedIndices ≠ ∅) && decide (accessed m e a e.indices ≠ ∅) &&
      !decide (accessed m e a e.indices ⊆ e.matchedIndices))

/-- ArrayVariablesDependencyGraph.h:99-117, `addEquations`: the edges for an equation. -/
def equationEdges (m : Promo.Model β) (e : Inst β) : List (Nat × Nat) :=
  match writeAccesses m e with
  | [] => []
  | w :: _ => (readAccesses m e).map fun a => (w.var, a.var)

/-- VariablesPruning.cpp:213-234, `walkDerivedVariables` and `walkDerivativeVariables`: the variables
found by following a map. The number of steps is limited by that of the variables, as is the length of
the chains of derivatives. -/
def walk (next : Nat → Option Nat) : Nat → Nat → List Nat
  | 0, _ => []
  | n + 1, v =>
    match next v with
    | none => []
    | some w => w :: walk next n w

/-- VariablesPruning.cpp:282-311: the edges between a variable and its derivatives. -/
def derivativeEdges (m : Model β) (v : Nat) : List (Nat × Nat) :=
  (walk m.derived m.base.numVars v ++ walk m.derivative m.base.numVars v).flatMap
    fun w => [(v, w), (w, v)]

/-- All the edges of the graph. -/
def edges (m : Model β) : List (Nat × Nat) :=
  (m.base.initial ++ m.base.main).flatMap (fun e => equationEdges m.base e.toInst) ++
    (List.range m.base.numVars).flatMap (derivativeEdges m)

/-- VariablesPruning.cpp:119-125: the output variables. -/
def outputs (m : Model β) : List Nat := (List.range m.base.numVars).filter m.output

/-- One step along the edges. -/
def step (es : List (Nat × Nat)) (s : Finset Nat) : Finset Nat :=
  s ∪ ((es.filter fun x => decide (x.1 ∈ s)).map Prod.snd).toFinset

/-- The vertices reachable from the given ones. -/
def reach (es : List (Nat × Nat)) (n : Nat) (s : Finset Nat) : Finset Nat := (step es)^[n] s

/-- VariablesPruning.cpp:237-355, `collectUsedVariables`. -/
def used (m : Model β) : Finset Nat :=
  let found := reach (edges m) m.base.numVars (outputs m).toFinset
  found ∪ found.biUnion fun v =>
    (walk m.derived m.base.numVars v ++ walk m.derivative m.base.numVars v).toFinset

/-- The model after the pass, and the variables that remain. -/
structure Pruned (β : Type) where
  vars : List Nat
  initial : List (Eqn β)
  main : List (Eqn β)
  starts : List (Nat × List Nat)
  bindings : List (Nat × List Nat)

/-- VariablesPruning.cpp:112-202, `processModelOp`. -/
def prune (m : Model β) : Pruned β :=
  if (outputs m).isEmpty then
    ⟨List.range m.base.numVars, m.base.initial, m.base.main, m.starts, m.bindings⟩
  else
    let kept := fun v => decide (v ∈ used m)
    ⟨(List.range m.base.numVars).filter kept, m.base.initial.filter fun e => kept e.matched,
      m.base.main.filter fun e => kept e.matched, m.starts.filter fun s => kept s.1,
      m.bindings.filter fun b => kept b.1⟩

end Marco.Prune
