import Verif.Model.TensorViews
import Mathlib.Algebra.Order.Ring.Rat

/-!
# Model of the checks added for the run time
(`/repo/lib/Dialect/BaseModelica/Transforms/RuntimeVerifiableOpInterfaceImpl.cpp`)

Each function gives the conditions of the `AssertOp`s created for one operation, in order, already
evaluated on the values the operands have at run time. `none` stands for an access beyond the end of
a list of values, or for a `tensor.dim` of a dimension that does not exist: neither is guarded.

Integers are unbounded, floating-point numbers are replaced by rationals, without NaN. The dimensions
are those at run time.
-/

namespace Marco.Checks

/-- A subscript at run time: a scalar, a range with begin, end and step (all of them included, counted
from 0), the result of an `UnboundedRangeOp`. -/
inductive Sub where
  | index (i : ℤ)
  | range (b e s : ℤ)
  | unbounded
deriving DecidableEq, Repr

/-- `verifyIndexedAccess`, for the values whose type has the rank `dims.length`
(RuntimeVerifiableOpInterfaceImpl.cpp:92-131). It serves `TensorExtractOp` (142-153),
`TensorInsertOp` (158-169), `LoadOp` (362-373), `StoreOp` (378-389) and `SubscriptionOp` (394-405).
The loop goes through the dimensions, `indices[dim]` may not exist. -/
def indexed : List ℕ → List ℤ → Option (List Bool)
  | [], _ => some []
  | _ :: _, [] => none
  | d :: ds, i :: is => (indexed ds is).map fun cs => (decide (0 ≤ i) && decide (i < d)) :: cs

/-- The verifier of `TensorViewOp` (RuntimeVerifiableOpInterfaceImpl.cpp:251-314), `k` being
`subscript.index()` of the first subscript. -/
def view (dims : List ℕ) : ℕ → List Sub → Option (List Bool)
  | _, [] => some []
  | k, .unbounded :: ss => view dims (k + 1) ss
  | k, .range b e s :: ss =>
    match dims[k]? with
    | none => none
    | some d => (view dims (k + 1) ss).map fun cs => decide (Views.rangeSize b e s ≤ d) :: cs
  | k, .index i :: ss =>
    match dims[k]? with
    | none => none
    | some d => (view dims (k + 1) ss).map fun cs => (decide (0 ≤ i) && decide (i < d)) :: cs

/-- The loop over the subscripts in the verifier of `TensorInsertSliceOp`
(RuntimeVerifiableOpInterfaceImpl.cpp:190-217): the conditions and the two counters. -/
def insertSubs (source : List ℕ) : ℕ → ℕ → List Sub → Option (List Bool × ℕ × ℕ)
  | k, j, [] => some ([], k, j)
  | k, j, .index _ :: ss => insertSubs source k (j + 1) ss
  | k, j, .unbounded :: ss => insertSubs source k (j + 1) ss
  | k, j, .range b e s :: ss =>
    match source[k]? with
    | none => none
    | some n => (insertSubs source (k + 1) (j + 1) ss).map fun r =>
        (decide ((n : ℤ) = Views.rangeSize b e s) :: r.1, r.2)

/-- The loop over the dimensions that have no subscript
(RuntimeVerifiableOpInterfaceImpl.cpp:223-244): `source` holds the dimensions from `sourceDimension`
on, `j` is `destinationDimension`. -/
def insertRest (dest : List ℕ) : ℕ → List ℕ → Option (List Bool)
  | _, [] => some []
  | j, n :: ns =>
    match dest[j]? with
    | none => none
    | some d => (insertRest dest (j + 1) ns).map fun cs => decide (n = d) :: cs

/-- The verifier of `TensorInsertSliceOp` (RuntimeVerifiableOpInterfaceImpl.cpp:174-246), without the
assertion at 219-221. -/
def insertSlice (source dest : List ℕ) (subs : List Sub) : Option (List Bool) :=
  (insertSubs source 0 0 subs).bind fun r =>
    (insertRest dest r.2.2 (source.drop r.2.1)).map fun cs => r.1 ++ cs

/-- The verifiers of `DimOp` (RuntimeVerifiableOpInterfaceImpl.cpp:323-357) and of `SizeOp` with a
dimension (588-627). -/
def dimension (dims : List ℕ) (d : ℤ) : Bool := decide (0 ≤ d) && decide (d < dims.length)

/-- `verifyArgumentIsNotZero` (RuntimeVerifiableOpInterfaceImpl.cpp:39-52), for `DivOp` (414-424),
`DivTruncOp` (512-521), `ModOp` (560-569), `RemOp` (574-583). -/
def notZero (x : ℚ) : Bool := decide (x ≠ 0)

/-- The loops of the verifier of `DivEWOp` (RuntimeVerifiableOpInterfaceImpl.cpp:429-469): the
conditions in the order of the iterations of `scf::buildLoopNest`, from 0 to the size of each
dimension. A scalar has no dimension. -/
def divEW : List ℕ → (List ℕ → ℚ) → List Bool
  | [], elem => [notZero (elem [])]
  | d :: ds, elem => (List.range d).flatMap fun i => divEW ds fun p => elem (i :: p)

/-- `verifyArgumentIsPositive` (RuntimeVerifiableOpInterfaceImpl.cpp:16-37). -/
def positive (strict : Bool) (x : ℚ) : Bool := if strict then decide (x > 0) else decide (x ≥ 0)

/-- `verifyArgumentIsBetween` (RuntimeVerifiableOpInterfaceImpl.cpp:54-90). -/
def between (lower : ℚ) (strictLower : Bool) (upper : ℚ) (strictUpper : Bool) (x : ℚ) : Bool :=
  (if strictLower then decide (x > lower) else decide (x ≥ lower)) &&
  (if strictUpper then decide (x < upper) else decide (x ≤ upper))

/-- The functions with a restricted domain. -/
inductive Fn where
  | acos | asin | log | log10 | sqrt
deriving DecidableEq, Repr

/-- The verifiers of `AcosOp` (RuntimeVerifiableOpInterfaceImpl.cpp:478-490), `AsinOp` (495-507),
`LogOp` (526-538), `Log10Op` (543-555), `SqrtOp` (632-643). -/
def domain : Fn → ℚ → Bool
  | .acos => between (-1) false 1 false
  | .asin => between (-1) false 1 false
  | .log => positive true
  | .log10 => positive true
  | .sqrt => positive false

end Marco.Checks
