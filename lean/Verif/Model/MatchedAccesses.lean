import Verif.Model.MatchingPass

/-!
# Model of the accesses of matched equations
(`/repo/lib/Dialect/BaseModelica/IR/Ops.cpp`, lines 8196-8240, `/repo/include/marco/Modeling/Matching.h`, lines 1390-1413,
`/repo/lib/Modeling/MCIM.cpp`, lines 377-407,
`/repo/lib/Dialect/BaseModelica/Transforms/Modeling/EquationBridge.cpp`, lines 7-25 and 178-187)

The edges of the graph come from the accesses of the equations. After the matching an instance stores the variable it is
matched with and the indices of it; which of its accesses are the writes and which the reads is found out from these.

Simplified: an access is a function from the induction values to one element.
-/

namespace Marco.MatchPass
open Matching Mat

/-- `VariableAccess`; `scalar`: the access function has no results. -/
structure Acc where
  var : String
  scalar : Bool
  fn : Point → Point

/-- EquationBridge.cpp:7-25, `convertAccessFunction`, applied to an index of the graph. -/
def conv (inductions : Nat) (a : Acc) (p : Point) : Point :=
  if a.scalar then [0] else if inductions = 0 then a.fn [] else a.fn p

/-- MCIM.cpp:387-407, `apply`, for each of the accesses to the variable: incidences with the indices of the variable. -/
def incidence {P : Type} (accs : List Acc) (e : Inst P) (b : VBridge) : Mat :=
  (accs.filter fun a => a.var == b.1).foldl (fun s a => s ∪
    ((mask e.indices).filter fun p => conv e.inductions a p ∈ mask b.2).image fun p => (p, conv e.inductions a p)) ∅

/-- Matching.h:1390-1413, `discoverAccesses`: one edge for each variable that is accessed. -/
def edgesOf {P : Type} (accs : Nat → List Acc) (bs : List VBridge) (es : List (Inst P)) : List (Nat × Nat × Mat) :=
  es.zipIdx.flatMap fun e => bs.zipIdx.filterMap fun b =>
    if (accs e.1.template).any fun a => a.var == b.1.1 then some (e.2, b.2, incidence (accs e.1.template) e.1 b.1) else none

/-- `AccessFunction::map` on the indices of an instance. Without results there are no elements
(AccessFunctionEmpty.cpp:62); without dimensions the function is constant (AccessFunctionAffineConstant.cpp:71-81). -/
def image (inductions : Nat) (a : Acc) (s : Finset Point) : Finset Point :=
  if a.scalar then ∅ else if inductions = 0 then {a.fn []} else s.image a.fn

/-- Ops.cpp:8196-8217, `getWriteAccesses`. -/
def writeAccesses {P : Type} (accs : List Acc) (e : Inst P) : List Acc :=
  match e.matched with
  | none => []
  | some (n, s) => accs.filter fun a => a.var == n &&
      (decide (s = ∅ ∧ image e.inductions a e.indices = ∅) || decide (image e.inductions a e.indices ⊆ s))

/-- Ops.cpp:8219-8240, `getReadAccesses`. -/
def readAccesses {P : Type} (accs : List Acc) (e : Inst P) : List Acc :=
  match e.matched with
  | none => accs
  | some (n, s) => accs.filter fun a => a.var != n ||
      (decide (s ≠ ∅ ∧ image e.inductions a e.indices ≠ ∅) && !decide (image e.inductions a e.indices ⊆ s))

end Marco.MatchPass
