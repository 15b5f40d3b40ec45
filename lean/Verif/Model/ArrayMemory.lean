import Mathlib.Data.List.Basic

/-!
# Model of the operations on arrays in memory
(`/repo/lib/Codegen/Conversion/BaseModelicaToMemRef/BaseModelicaToMemRef.cpp`, and the patterns for `SubscriptionOp`, `LoadOp`
and `StoreOp` of `/repo/lib/Dialect/BaseModelica/IR/Ops.cpp`)

An array becomes a `memref`: a buffer of cells, an offset, and for each dimension a size and a stride. The cells of a buffer
are numbered by integers. The semantics of `memref.subview`, `memref.cast`, `memref.load` and of the loop nests of the `scf`
dialect are those of MLIR (not part of the repository); an address outside of the buffer is not detected by the model. Sizes
and indices are integers without overflow.
-/

namespace Marco.ArrMem

/-- How a conversion ends. -/
inductive Out (α : Type) where
  | ok (a : α)
  /-- a failing assertion or an access outside of a list in the compiler -/
  | ub
  deriving DecidableEq, Repr

/-! ## Arrays from elements -/

/-- `advanceIndices` (`/repo/lib/Codegen/Conversion/BaseModelicaToMemRef/BaseModelicaToMemRef.cpp:355-368`). The indices and the
dimensions are in reverse order: the loop begins with the last one. -/
def advance : List Nat → List Nat → List Nat × Bool
  | i :: is, d :: ds => if i + 1 = d then (0 :: (advance is ds).1, (advance is ds).2) else ((i + 1) :: is, true)
  | is, _ => (is, false)

/-- The `do` loop (`/repo/lib/Codegen/Conversion/BaseModelicaToMemRef/BaseModelicaToMemRef.cpp:372-388`): `values` are the values
from `currentValue` on. The element is stored under the indices in their order. -/
def fromLoop {V : Type} (dimsR : List Nat) : List Nat → List V → (List Nat → Option V) → Out (List Nat → Option V)
  | _, [], _ => .ub
  | idxR, v :: vs, arr =>
    let arr' := fun j => if j = idxR.reverse then some v else arr j
    if (advance idxR dimsR).2 then fromLoop dimsR (advance idxR dimsR).1 vs arr' else .ok arr'

/-- `ArrayFromElementsOpLowering` (`/repo/lib/Codegen/Conversion/BaseModelicaToMemRef/BaseModelicaToMemRef.cpp:339-391`): the
elements of the new array; what is not stored is `none`. The cast of the values to the type of the elements
(lines 380-383) is left out. -/
def fromElements {V : Type} (dims : List Nat) (values : List V) : Out (List Nat → Option V) :=
  fromLoop dims.reverse (dims.map fun _ => 0).reverse values fun _ => none

/-! ## Filling and copying -/

/-- A `memref` at run time: the offset, and the size and the stride of each dimension. -/
structure MemRef where
  offset : Int
  dims : List (Int × Int)
  deriving DecidableEq, Repr

/-- The address of an element: the offset plus the indices times the strides (semantics of MLIR). -/
def dot : List (Int × Int) → List Int → Int
  | d :: ds, i :: is => i * d.2 + dot ds is
  | _, _ => 0

/-- The address of an element. -/
def MemRef.addr (m : MemRef) (idx : List Int) : Int := m.offset + dot m.dims idx

/-- `scf::buildLoopNest` with lower bounds 0 and steps 1, as used at
`/repo/lib/Codegen/Conversion/BaseModelicaToMemRef/BaseModelicaToMemRef.cpp:581-586,638-653`. -/
def loopNest {S : Type} (body : List Int → S → S) : List Nat → List Int → S → S
  | [], pos, s => body pos s
  | u :: us, pos, s => (List.range u).foldl (fun s (i : Nat) => loopNest body us (pos ++ [(i : Int)]) s) s

/-- A store of one element. -/
def store {W : Type} (m : MemRef) (pos : List Int) (v : W) (mem : Int → W) : Int → W :=
  fun a => if a = m.addr pos then v else mem a

/-- `ArrayFillOpLowering` (`/repo/lib/Codegen/Conversion/BaseModelicaToMemRef/BaseModelicaToMemRef.cpp:550-590`): the upper bounds
are the sizes at run time (lines 566-572); the value is cast before the loops (lines 574-579). `ArrayBroadcastOp` is an allocation
followed by this (lines 398-409). -/
def fill {V W : Type} (cast : V → W) (m : MemRef) (v : V) (mem : Int → W) : Int → W :=
  loopNest (fun pos mem => store m pos (cast v) mem) (m.dims.map fun d => d.1.toNat) [] mem

/-- The upper bounds of the loops of the copy (`/repo/lib/Codegen/Conversion/BaseModelicaToMemRef/BaseModelicaToMemRef.cpp:619-636`):
the static size of the source, else that of the destination, else the size of the source at run time. -/
def copyBounds : List (Option Nat) → List (Option Nat) → List (Int × Int) → List Nat
  | s :: ss, t :: ts, d :: ds => (match s, t with
    | some n, _ => n
    | none, some n => n
    | none, none => d.1.toNat) :: copyBounds ss ts ds
  | _, _, _ => []

/-- `ArrayCopyOpDifferentTypeLowering` (`/repo/lib/Codegen/Conversion/BaseModelicaToMemRef/BaseModelicaToMemRef.cpp:598-657`). The
types of the elements differ, so the two buffers are different memories. -/
def copy {V W : Type} (cast : V → W) (sty dty : List (Option Nat)) (src dst : MemRef) (smem : Int → V) (dmem : Int → W) :
    Int → W :=
  loopNest (fun pos mem => store dst pos (cast (smem (src.addr pos))) mem) (copyBounds sty dty src.dims) [] dmem

/-! ## Views -/

/-- A subscript: an index, or a range with begin, end and step; `fixed` if the range is the result of a `ConstantOp`. -/
inductive Sub where
  | index (i : Int)
  | range (fixed : Bool) (b e s : Int)
  deriving DecidableEq, Repr

/-- `isa<RangeType>`. -/
def Sub.isRange : Sub → Bool
  | .index _ => false
  | .range .. => true

/-- `RangeSizeOpLowering` (`/repo/lib/Codegen/Conversion/BaseModelicaToArith/BaseModelicaToArith.cpp:211-235`), for ranges of
integers. -/
def rangeSize (b e s : Int) : Int := (e - b).tdiv s + 1

/-- `SubscriptionOp::inferResultType` (`/repo/lib/Dialect/BaseModelica/IR/Ops.cpp:1258-1286`): a range gives an unknown size,
a constant one its number of elements; an index gives none; the other dimensions are kept. `none` is `kDynamic`. -/
def inferShape : List Sub → List (Option Nat) → List (Option Nat)
  | [], shape => shape
  | .index _ :: subs, _ :: shape => inferShape subs shape
  | .range true b e s :: subs, _ :: shape => some (rangeSize b e s).toNat :: inferShape subs shape
  | .range false _ _ _ :: subs, _ :: shape => none :: inferShape subs shape
  | _ :: _, [] => []

/-- One dimension of the subview: offset, size and stride, as static size if it is an attribute
(`/repo/lib/Codegen/Conversion/BaseModelicaToMemRef/BaseModelicaToMemRef.cpp:457-503`). -/
structure Item where
  static : Option Nat
  offset : Int
  size : Int
  step : Int
  deriving DecidableEq, Repr

/-- The loop over the dimensions of the source (`/repo/lib/Codegen/Conversion/BaseModelicaToMemRef/BaseModelicaToMemRef.cpp:457-503`). -/
def items : List Sub → List (Option Nat) → List (Int × Int) → List Item
  | .range _ b e s :: subs, _ :: shape, _ :: dims => ⟨none, b, rangeSize b e s, s⟩ :: items subs shape dims
  | .index i :: subs, _ :: shape, _ :: dims => ⟨some 1, i, 1, 1⟩ :: items subs shape dims
  | [], n :: shape, d :: dims => ⟨n, 0, (n.elim d.1 fun k => (k : Int)), 1⟩ :: items [] shape dims
  | _, _, _ => []

/-- The dimensions that a rank-reducing subview keeps (`mlir::computeRankReductionMask`, MLIR): from the left, a dimension is
kept if it has the next size of the result; another must have size 1. `none` if this is not possible. -/
def keep : List Item → List (Option Nat) → Option (List Bool)
  | [], [] => some []
  | [], _ :: _ => none
  | it :: its, [] => if it.static = some 1 then (keep its []).map (false :: ·) else none
  | it :: its, r :: rs =>
    if it.static = r then (keep its rs).map (true :: ·)
    else if it.static = some 1 then (keep its (r :: rs)).map (false :: ·)
    else none

/-- The dimensions of the subview: those kept, with the stride times the step. -/
def viewDims : List Bool → List Item → List (Int × Int) → List (Int × Int)
  | k :: ks, it :: its, d :: dims =>
    if k then (it.size, d.2 * it.step) :: viewDims ks its dims else viewDims ks its dims
  | _, _, _ => []

/-- The offset of the subview. -/
def viewOffset : List Item → List (Int × Int) → Int
  | it :: its, d :: dims => it.offset * d.2 + viewOffset its dims
  | _, _ => 0

/-- `SubscriptionOpLowering` without the final cast
(`/repo/lib/Codegen/Conversion/BaseModelicaToMemRef/BaseModelicaToMemRef.cpp:444-512`): `shape` is the static shape of the source.
`inferRankReducedResultType` (MLIR) takes all the dimensions if the result has the same rank, and asserts that the reduction is
possible otherwise. -/
def subview (subs : List Sub) (shape : List (Option Nat)) (m : MemRef) : Out MemRef :=
  let its := items subs shape m.dims
  let off := m.offset + viewOffset its m.dims
  if its.length = (inferShape subs shape).length then .ok ⟨off, viewDims (its.map fun _ => true) its m.dims⟩
  else match keep its (inferShape subs shape) with
    | some ks => .ok ⟨off, viewDims ks its m.dims⟩
    | none => .ub

/-- The strides of the identity layout: `convertArrayType`
(`/repo/lib/Codegen/Conversion/BaseModelicaCommon/TypeConverter.cpp:67-71`) gives a `memref` without layout. -/
def identityDims : List Int → List (Int × Int)
  | [] => []
  | n :: ns => (n, ns.prod) :: identityDims ns

/-- The final `memref.cast` (`/repo/lib/Codegen/Conversion/BaseModelicaToMemRef/BaseModelicaToMemRef.cpp:514-515`), when it is not
folded into the operation that uses it: the result has the type `convertType` gives, with offset 0 and the strides of the sizes.
The cast is undefined if these are not the ones at run time. -/
def castIdentity (m : MemRef) : Out MemRef :=
  if m.offset = 0 ∧ m.dims = identityDims (m.dims.map Prod.fst) then .ok m else .ub

/-- `SubscriptionOpLowering` (`/repo/lib/Codegen/Conversion/BaseModelicaToMemRef/BaseModelicaToMemRef.cpp:444-518`). -/
def lowerSubscription (subs : List Sub) (shape : List (Option Nat)) (m : MemRef) : Out MemRef :=
  match subview subs shape m with
  | .ok v => castIdentity v
  | .ub => .ub

/-! ## Merging of subscriptions -/

/-- `MergeSubscriptionsPattern` (`/repo/lib/Dialect/BaseModelica/IR/Ops.cpp:1186-1215`): the subscripts of a chain of
`SubscriptionOp`, the innermost first, are put one after the other. `none` if there is nothing to merge. -/
def mergeSubs : List (List Sub) → Option (List Sub)
  | [] => none
  | [_] => none
  | chain => some chain.flatten

/-- `LoadOpMergeSubscriptionPattern` (`/repo/lib/Dialect/BaseModelica/IR/Ops.cpp:963-988`) and `StoreOpMergeSubscriptionPattern`
(`/repo/lib/Dialect/BaseModelica/IR/Ops.cpp:1063-1088`): the indices of an access to a view become indices of the source, if
the view has no ranges. -/
def mergeAccess (subs : List Sub) (idx : List Int) : Option (List Sub) :=
  if subs.any Sub.isRange then none else some (subs ++ idx.map Sub.index)

end Marco.ArrMem
