import Verif.Model.MatchingGraph
import Mathlib.Algebra.BigOperators.Group.Multiset.Basic

/-!
# Model of the pass that matches equations and variables
(`/repo/lib/Dialect/BaseModelica/Transforms/Matching.cpp`, lines 137-410, with
`Modeling/VariableBridge.cpp` and `Modeling/EquationBridge.cpp`)

The graph (C28-C31) is built from the equations and the variables of the model: scalar ones are masked as arrays with the
index `{0}`. If the numbers of scalar equations and variables are equal and the graph can be matched, each equation is
replaced by one instance for each variable it is matched with.

Simplified: sets of indices are finite sets of points; the edges of the graph and their incidences (C26, C102) and the
algorithm are parameters. The instances are created in the order of the equations and variables.
-/

namespace Marco.MatchPass
open Matching Mat

/-- `EquationInstanceOp`: the template with its number of induction variables, the indices, the matched variable (its name
and the indices, which are empty if it is scalar), and the other properties. -/
structure Inst (P : Type) where
  template : Nat
  inductions : Nat
  indices : Finset Point
  matched : Option (String × Finset Point)
  props : P

/-- `VariableOp`, with the indices that the map of the derivatives has for it. -/
structure Var where
  name : String
  scalar : Bool
  shape : List Nat
  readOnly : Bool
  derived : Option (Finset Point)

/-- The points of a box that starts at 0. -/
def boxPoints : List Nat → Finset Point
  | [] => {[]}
  | n :: ns => (Finset.range n).biUnion fun i => (boxPoints ns).image fun p => (i : Int) :: p

/-- BaseModelica/IR/Ops.cpp:1513-1527, `VariableOp::getIndices`. With an empty dimension an assertion fails (Range.cpp:7);
the theorems exclude this case. -/
def Var.indices (v : Var) : Finset Point := if v.scalar then ∅ else boxPoints v.shape

/-- Which of the two matchings. -/
inductive Phase where
  | ic
  | main
  deriving DecidableEq, Repr

/-- Matching.cpp:155-158 and 170-198, `matchableIndicesFn`. -/
def matchable : Phase → Var → Option (Finset Point)
  | .ic, v => some v.indices
  | .main, v =>
    if v.readOnly then none
    else match v.derived with
      | some d =>
        if v.scalar then none
        else
          let result := v.indices \ d
          if result = ∅ then none else some result
      | none => some v.indices

/-- VariableBridge.cpp:89-96 and EquationBridge.cpp:168-174, `getIndices`. -/
def mask (s : Finset Point) : Finset Point := if s = ∅ then {[0]} else s

/-- `VariableBridge`: the name and the original indices. -/
abbrev VBridge := String × Finset Point

/-- Matching.cpp:386-394. -/
def bridges (ph : Phase) (vs : List Var) : List VBridge := vs.filterMap fun v => (matchable ph v).map fun s => (v.name, s)

/-- Matching.h:1437-1449. -/
def numVariables (bs : List VBridge) : Nat := (bs.map fun b => (mask b.2).card).sum

/-- Matching.h:1454-1466. -/
def numEquations {P : Type} (es : List (Inst P)) : Nat := (es.map fun e => (mask e.indices).card).sum

/-- Matching.cpp:377-410, `buildMatchingGraph`; `edges` are the edges found by `discoverAccesses`. -/
def buildGraph {P : Type} (bs : List VBridge) (es : List (Inst P)) (edges : List (Nat × Nat × Mat)) : Graph where
  ne := es.length
  nv := bs.length
  nd := edges.length
  node
    | .eq i => let s := ((es[i]?).map fun e => mask e.indices).getD ∅; ⟨s, ∅, s⟩
    | .var j => let s := ((bs[j]?).map fun b => mask b.2).getD ∅; ⟨s, ∅, s⟩
  edge k := match edges[k]? with
    | some e => ⟨e.1, e.2.1, e.2.2, ∅, e.2.2⟩
    | none => ⟨0, 0, ∅, ∅, ∅⟩

/-- Matching.h:1574-1601, `collectMatches`: the matches of an equation with a variable. -/
def pairs (G : Graph) (m : Nat → Mat) (i j : Nat) : Mat :=
  (Finset.range G.nd).biUnion fun k => if (G.edge k).eq = i ∧ (G.edge k).var = j then m k else ∅

/-- Matching.cpp:336-363: the instance created for a solution. -/
def instance_ {P : Type} (e : Inst P) (b : VBridge) (s : Mat) : Inst P where
  template := e.template
  inductions := e.inductions
  indices := if e.inductions ≠ 0 then s.eqsOf else e.indices
  matched := some (b.1, if b.2 = ∅ then ∅ else s.varsOf)
  props := e.props

/-- Matching.cpp:324-367: the instances created. -/
def created {P : Type} (G : Graph) (m : Nat → Mat) (bs : List VBridge) (es : List (Inst P)) : List (Inst P) :=
  es.zipIdx.flatMap fun e => bs.zipIdx.filterMap fun b =>
    let s := pairs G m e.2 b.2
    if s = ∅ then none else some (instance_ e.1 b.1 s)

/-- Matching.cpp:366 and 369-372: the old instances that are not erased. -/
def remaining {P : Type} (G : Graph) (m : Nat → Mat) (bs : List VBridge) (es : List (Inst P)) : List (Inst P) :=
  es.zipIdx.filterMap fun e => if bs.zipIdx.all fun b => pairs G m e.2 b.2 = ∅ then some e.1 else none

/-- The messages of the pass. -/
inductive Err where
  | underdetermined
  | overdetermined
  | unsolved
  deriving DecidableEq, Repr

/-- Matching.h:1489-1509, `match`: the matches if all is matched. What is undefined in the algorithm, and the end of its fuel,
are not told from its failure here. -/
def algorithm (solve : Solver) (leaves : Bool) (order : List Vtx → List Vtx) (scheds : Nat → Sched) (sfuel fuel : Nat)
    (G : Graph) : Option (Nat → Mat) :=
  match run solve leaves order scheds sfuel fuel G with
  | some (true, m, _) => some m
  | _ => none

/-- Matching.cpp:267-375, `match`; `alg` is the algorithm, which gives the matches of the edges. -/
def matchEquations {P : Type} (alg : Graph → Option (Nat → Mat)) (ph : Phase) (vs : List Var) (es : List (Inst P))
    (edges : List (Nat × Nat × Mat)) : Except Err (List (Inst P)) :=
  let bs := bridges ph vs
  let G := buildGraph bs es edges
  if numEquations es < numVariables bs then .error .underdetermined
  else if numEquations es > numVariables bs then .error .overdetermined
  else match alg G with
    | none => .error .unsolved
    | some m => .ok (remaining G m bs es ++ created G m bs es)

/-- Matching.cpp:153-207 for one of the two matchings. -/
def processPhase {P : Type} (alg : Graph → Option (Nat → Mat)) (ph : Phase) (vs : List Var) (es : List (Inst P))
    (edges : List (Nat × Nat × Mat)) : Except Err (List (Inst P)) :=
  if es.isEmpty then .ok es else matchEquations alg ph vs es edges

/-- Matching.cpp:137-208, `processModelOp`: the initial equations and then the main ones. -/
def processModel {P : Type} (alg : Graph → Option (Nat → Mat)) (vs : List Var) (init main : List (Inst P))
    (edges edges' : List (Nat × Nat × Mat)) : Except Err (List (Inst P) × List (Inst P)) := do
  let init ← processPhase alg .ic vs init edges
  let main ← processPhase alg .main vs main edges'
  return (init, main)

end Marco.MatchPass
