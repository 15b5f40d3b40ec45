import Mathlib.Data.Finset.Union
import Mathlib.Data.Int.Interval
import Verif.Model.Box

/-!
# Model of the passes that split matched equations
(`/repo/lib/Dialect/BaseModelica/Transforms/EquationAccessSplit.cpp`,
`ScalarRangesEquationSplit.cpp`, `SingleValuedInductionElimination.cpp`, and
`EquationInstanceOp::setIndices` of `/repo/lib/Dialect/BaseModelica/IR/Ops.cpp`)

Index sets are finite sets of points and their operations are the set operations (C07 to C18 are
about the operations themselves); where a pass walks over the stored ranges, they are an argument.
An access is the function from the induction values to the accessed element; only accesses to array
variables are considered, with one element for each point. A function on the induction values takes
the leading coordinates of a longer point, as `getAffineMapWithGivenDimensions` makes it do
(AccessFunctionAffineMap.cpp:48-56). Failing assertions are ignored: they are compiled out.
-/

namespace Marco.Split
open Marco

/-- `VariableAccess`: the variable and the access function. -/
structure Access where
  var : Nat
  fn : Point → Point

/-- `AccessFunction::map` on an index set (AccessFunctionAffineMap.cpp:58-66,
AccessFunctionRotoTranslation.cpp:185-195). Without induction variables the equation has no indices,
and its accesses are constants (AccessFunctionAffineConstant.cpp:71-81). -/
def image (f : Point → Point) (scalar : Bool) (s : Finset Point) : Finset Point :=
  if scalar then {f []} else s.image f

/-- `AccessFunction::inverseMap(accessed, parent)` intersected with the parent
(AccessFunction.cpp:204-215). -/
def preimage (f : Point → Point) (accessed parent : Finset Point) : Finset Point :=
  parent.filter fun p => f p ∈ accessed

/-- `EquationInstanceOp` with its template: the number of induction variables, the scalar equation
for each value of them, the accesses found in the template, and the properties. -/
structure Inst (β : Type) where
  dims : Nat
  body : Point → β
  accesses : List Access
  indices : Finset Point
  matched : Nat
  matchedIndices : Finset Point

/-- `struct Partition` (EquationAccessSplit.cpp:75-79). -/
structure Partition where
  equationIndices : Finset Point
  variableIndices : Finset Point
  accesses : List (Point → Point)

/-! ### EquationAccessSplit -/

/-- EquationAccessSplit.cpp:116-133: one partition and one access. -/
def refineVars (accessed : Finset Point) (f : Point → Point) (p : Partition) : List Partition :=
  let inter := accessed ∩ p.variableIndices
  if inter = ∅ then [p]
  else
    let diff := p.variableIndices \ inter
    ⟨∅, inter, p.accesses ++ [f]⟩ :: if diff = ∅ then [] else [⟨∅, diff, p.accesses⟩]

/-- EquationAccessSplit.cpp:99-111: the accesses that are considered. -/
def matchAccesses {β : Type} (op : Inst β) : List (Point → Point) :=
  (op.accesses.filter fun a => decide (a.var = op.matched) &&
    decide (op.indices.image a.fn ⊆ op.matchedIndices)).map Access.fn

/-- EquationAccessSplit.cpp:94-137: the partitions of the matched indices. -/
def variablePartitions (indices : Finset Point) (fs : List (Point → Point)) (m : Finset Point) :
    List Partition :=
  fs.foldl (fun ps f => ps.flatMap (refineVars (indices.image f) f)) [⟨∅, m, []⟩]

/-- EquationAccessSplit.cpp:149-156: the indices for which all accesses are in the partition. -/
def inverseMap (indices : Finset Point) (v : Partition) : Finset Point :=
  v.accesses.foldl (fun acc f => acc ∩ preimage f v.variableIndices indices) indices

/-- `variableIndices += access.map(equationIndices)` over the accesses
(EquationAccessSplit.cpp:174-178, 187-190). -/
def reached (fs : List (Point → Point)) (s : Finset Point) : Finset Point :=
  fs.foldl (fun acc f => acc ∪ s.image f) ∅

/-- EquationAccessSplit.cpp:158-193: one partition of the equation and one of the variable. -/
def refineEqs (inverse : Finset Point) (v q : Partition) : List Partition :=
  let inter := inverse ∩ q.equationIndices
  if inter = ∅ then [q]
  else
    let diff := q.equationIndices \ inter
    let fs := q.accesses ++ v.accesses
    ⟨inter, reached fs inter, fs⟩ ::
      if diff = ∅ then [] else [⟨diff, reached q.accesses diff, q.accesses⟩]

/-- EquationAccessSplit.cpp:143-197: the partitions of the equation. -/
def equationPartitions (indices : Finset Point) (vs : List Partition) : List Partition :=
  vs.foldl (fun qs v => qs.flatMap (refineEqs (inverseMap indices v) v)) [⟨indices, ∅, []⟩]

/-- EquationAccessSplit.cpp:81-247, `splitEquationIndices`: the equations that take the place of the
given one. -/
def accessSplit {β : Type} (op : Inst β) : List (Inst β) :=
  if op.indices = ∅ then [op]
  else
    let fs := matchAccesses op
    if fs.length ≤ 1 then [op]
    else
      let qs := equationPartitions op.indices (variablePartitions op.indices fs op.matchedIndices)
      if qs.length = 1 then [op]
      else qs.map fun q =>
        { op with indices := q.equationIndices, matchedIndices := q.variableIndices }

/-! ### ScalarRangesEquationSplit -/

/-- Ops.cpp:8196-8217, `EquationTemplateOp::getWriteAccesses`. -/
def writeAccesses {β : Type} (op : Inst β) : List Access :=
  op.accesses.filter fun a => decide (a.var = op.matched) &&
    decide (image a.fn (op.dims == 0) op.indices ⊆ op.matchedIndices)

/-- Ops.cpp:10015-10056, `EquationInstanceOp::setIndices`, for matched equations. -/
def setIndices {β : Type} (op : Inst β) (indices : Finset Point) (writes : List Access) : Inst β :=
  if indices = op.indices then op
  else
    let ws := if writes.isEmpty then writeAccesses op else writes
    { op with
      indices := indices
      matchedIndices := ws.foldl (fun acc a => acc ∪ image a.fn (op.dims == 0) indices) ∅ }

/-- The points of a box: the order of the iteration is of no importance here. -/
def boxPoints : Box → Finset Point
  | [] => {[]}
  | r :: b => (Finset.Ico r.b r.e).biUnion fun x => (boxPoints b).image (x :: ·)

/-- The points of the stored ranges. -/
def points (rs : List Box) : Finset Point := rs.foldl (fun acc b => acc ∪ boxPoints b) ∅

/-- ScalarRangesEquationSplit.cpp:27-81, `splitEquation`, on the stored ranges of the indices. -/
def scalarSplit {β : Type} (op : Inst β) (ranges : List Box) : List (Inst β) :=
  if ranges.isEmpty then [op]
  else
    let scalars := ranges.filter fun b => b.size == 1
    let remaining := ranges.filter fun b => !(b.size == 1)
    if scalars.isEmpty then [op]
    else
      let ws := writeAccesses op
      scalars.map (fun b => setIndices op (boxPoints b) ws) ++
        if remaining.isEmpty then [] else [setIndices op (points remaining) ws]

/-! ### SingleValuedInductionElimination -/

/-- SingleValuedInductionElimination.cpp:98-102: the ranges with one value. -/
def single (r : Range) : Bool := r.size == 1

/-- SingleValuedInductionElimination.cpp:183-199, the mapping of the induction variables in
`createReducedTemplate`: the values of the original inductions, given those of the new template. A
value past the end does not occur; it is 0. -/
def expand : Box → Point → Point
  | [], _ => []
  | r :: b, q =>
    if single r then r.b :: expand b q
    else match q with
      | x :: q => x :: expand b q
      | [] => 0 :: expand b []

/-- SingleValuedInductionElimination.cpp:161-206, `createReducedTemplate`, with the instance created
for it (lines 111-120), before its indices are set. -/
def reduced {β : Type} (op : Inst β) (r : Box) : Inst β :=
  { op with
    dims := op.dims - r.countP single
    body := fun q => op.body (expand r q)
    accesses := op.accesses.map fun a => ⟨a.var, fun q => a.fn (expand r q)⟩ }

/-- SingleValuedInductionElimination.cpp:122-148: the new instance for a range. -/
def eliminate {β : Type} (op : Inst β) (r : Box) : Inst β :=
  let rest := r.filter fun x => !single x
  setIndices (reduced op r) (if rest.isEmpty then ∅ else boxPoints rest) []

/-- SingleValuedInductionElimination.cpp:80-159, `processEquation`, on the stored ranges of the
indices. -/
def eliminateSingle {β : Type} (op : Inst β) (ranges : List Box) : List (Inst β) :=
  if ranges.isEmpty then [op]
  else
    let eligible := ranges.filter fun r => r.any single
    let remaining := eligible.foldl (fun acc r => acc \ boxPoints r) op.indices
    eligible.map (eliminate op) ++
      if remaining = ∅ then [] else [setIndices op remaining []]

end Marco.Split
