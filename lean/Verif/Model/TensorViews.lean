import Verif.Model.Point

/-!
# Model of the views of tensors
(`/repo/lib/Dialect/BaseModelica/IR/Ops.cpp`, lines 537-739,
`/repo/lib/Dialect/BaseModelica/Transforms/ViewAccessFolding.cpp`,
`/repo/lib/Dialect/BaseModelica/Transforms/RangeBoundariesInference.cpp`,
`/repo/lib/Codegen/Conversion/BaseModelicaToTensor/BaseModelicaToTensor.cpp`, lines 94-185 and 264-369)

Subscripts are values that depend on the induction variables (and on nothing else that changes
between the operations). Integers are unbounded. The static types of the tensors, which may leave
dimensions open, are not modelled: dimensions are those at run time.
-/

namespace Marco.Views

/-- A subscript: a scalar, a value of `RangeType` with begin, end and step, `UnboundedRangeOp`. -/
inductive Sub where
  | at (f : Point → ℤ)
  | range (b e s : Point → ℤ)
  | all

namespace Sub

/-- `mlir::isa<RangeType>`. -/
def isRange : Sub → Bool
  | .at _ => false
  | .range .. => true
  | .all => true

/-- `index.getDefiningOp<UnboundedRangeOp>()`. -/
def isAll : Sub → Bool
  | .all => true
  | _ => false

end Sub

/-- Values of tensor type: a variable or another operation that is not a view, with its dimensions,
or a `TensorViewOp`. -/
inductive Tensor where
  | src (v : String) (shape : List ℕ)
  | view (t : Tensor) (subs : List Sub)

/-- `TensorExtractOp`. -/
structure Extract where
  tensor : Tensor
  indices : List Sub

/-- `TensorInsertSliceOp`, with the dimensions of the destination and of the value. -/
structure Insert where
  destination : List ℕ
  value : List ℕ
  subs : List Sub

/-- The rank of the type (Ops.cpp:616-644, `TensorViewOp::inferResultType`). -/
def Tensor.rank : Tensor → ℕ
  | .src _ shape => shape.length
  | .view t subs => subs.countP Sub.isRange + (t.rank - subs.length)

/-- `1 + (end - begin) / step`
(lib/Codegen/Conversion/BaseModelicaToArith/BaseModelicaToArith.cpp:208-236; see C66). -/
def rangeSize (b e s : ℤ) : ℤ := 1 + (e - b).tdiv s

/-- The dimensions of a view of a tensor with the given dimensions (Ops.cpp:616-644). -/
def viewDims (p : Point) : List Sub → List ℤ → List ℤ
  | [], ds => ds
  | .at _ :: ss, ds => viewDims p ss ds.tail
  | .range b e s :: ss, ds => rangeSize (b p) (e p) (s p) :: viewDims p ss ds.tail
  | .all :: ss, ds => ds.headD 0 :: viewDims p ss ds.tail

/-- `tensor.dim` for all the dimensions. -/
def Tensor.dims (p : Point) : Tensor → List ℤ
  | .src _ shape => shape.map fun n : ℕ => (n : ℤ)
  | .view t subs => viewDims p subs (t.dims p)

/-! ## Canonicalization -/

/-- Ops.cpp:549-567 (and 664-680): the source of the innermost view and the subscripts of the views,
innermost first. -/
def chain : Tensor → Tensor × List Sub
  | .src v shape => (.src v shape, [])
  | .view t subs => ((chain t).1, (chain t).2 ++ subs)

/-- Ops.cpp:537-573, `MergeTensorViewsPattern`; `none` if it does not match. The same is done for
`SubscriptionOp` on arrays (lines 1181-1216, `MergeSubscriptionsPattern`). -/
def mergeViews : Tensor → Option Tensor
  | .view (.view t inner) subs =>
    let (source, l) := chain (.view t inner)
    some (.view source (l ++ subs))
  | _ => none

/-- Ops.cpp:651-684, `MergeTensorViewIntoTensorExtractPattern`. -/
def mergeExtract : Extract → Option Extract
  | ⟨.view t inner, indices⟩ =>
    let (source, l) := chain (.view t inner)
    some ⟨source, l ++ indices⟩
  | _ => none

/-! ## Folding of views -/

/-- What becomes of an operation. -/
inductive Out (α : Type) where
  | same
  | new (a : α)
  | invalid
  | undefined

/-- ViewAccessFolding.cpp:25-30, `isSlicingSubscription`. -/
def isSlicing (t : Tensor) (subs : List Sub) : Bool :=
  t.rank + subs.length ≠ (Tensor.view t subs).rank

/-- ViewAccessFolding.cpp:32-73, `concatSubscripts`; `undefined` if the second list is read beyond
its end. A range as factor, or the begin of an unbounded range, give operations that cannot be
lowered: `invalid`. Iterable values other than ranges are not modelled. -/
def concat : List Sub → List Sub → Out (List Sub)
  | [], second => .new second
  | .at f :: fs, second =>
    match concat fs second with
    | .new l => .new (.at f :: l)
    | r => r
  | .range _ _ _ :: _, [] => .undefined
  | .range b _ s :: fs, .at g :: ss =>
    match concat fs ss with
    | .new l => .new (.at (fun p => g p * s p + b p) :: l)
    | r => r
  | .range _ _ _ :: _, _ :: _ => .invalid
  | .all :: _, [] => .undefined
  | .all :: _, _ :: _ => .invalid

/-- ViewAccessFolding.cpp:76-111, `TensorViewOpPattern`. -/
def foldView : Tensor → Out Tensor
  | .view (.view t inner) subs =>
    if isSlicing (.view t inner) subs then .same
    else if !isSlicing t inner then .same
    else match concat inner subs with
      | .new l => .new (.view t l)
      | .same => .same
      | .invalid => .invalid
      | .undefined => .undefined
  | _ => .same

/-- ViewAccessFolding.cpp:113-144, `TensorExtractOpPattern`. -/
def foldExtract : Extract → Out Extract
  | ⟨.view t inner, indices⟩ =>
    if !isSlicing t inner then .same
    else match concat inner indices with
      | .new l => .new ⟨t, l⟩
      | .same => .same
      | .invalid => .invalid
      | .undefined => .undefined
  | _ => .same

/-- ViewAccessFolding.cpp:147-163: the pattern is applied to the extraction as long as it matches. -/
def foldExtracts : Tensor → List Sub → Out Extract
  | .src v shape, indices => .new ⟨.src v shape, indices⟩
  | .view t inner, indices =>
    match foldExtract ⟨.view t inner, indices⟩ with
    | .new e => foldExtracts t e.indices
    | .same => .new ⟨.view t inner, indices⟩
    | .invalid => .invalid
    | .undefined => .undefined

/-! ## Inference of the boundaries of ranges -/

/-- RangeBoundariesInference.cpp:36-68 (and 98-130): the subscripts from the dimension `i` on; `dim`
gives the dimensions of the source. -/
def inferSubs (dim : Point → List ℤ) (i : ℕ) : List Sub → List Sub
  | [] => []
  | .all :: ss =>
    .range (fun _ => 0) (fun p => (dim p).getD i 0 + -1) (fun _ => 1) :: inferSubs dim (i + 1) ss
  | s :: ss => s :: inferSubs dim (i + 1) ss

/-- RangeBoundariesInference.cpp:14-73, applied to all the views. -/
def infer : Tensor → Tensor
  | .src v shape => .src v shape
  | .view t subs => .view (infer t) (inferSubs (fun p => (infer t).dims p) 0 subs)

/-- RangeBoundariesInference.cpp:75-136. -/
def inferInsert (i : Insert) : Insert :=
  { i with subs := inferSubs (fun _ => i.destination.map fun n : ℕ => (n : ℤ)) 0 i.subs }

/-! ## Lowering -/

/-- One dimension of a slice: offset, size, stride, and whether the dimension is in the smaller tensor
(rank reduction of `tensor.extract_slice` and `tensor.insert_slice`). -/
structure Dim where
  offset : ℤ
  size : ℤ
  stride : ℤ
  kept : Bool
  deriving DecidableEq, Repr

/-- BaseModelicaToTensor.cpp:108-175, `TensorViewOpLowering`, with the dimensions of the source. There
is no lowering of an unbounded range: `none`. -/
def lowerView (p : Point) : List Sub → List ℤ → Option (List Dim)
  | [], ds => some (ds.map fun n => ⟨0, n, 1, true⟩)
  | .at f :: ss, ds => (lowerView p ss ds.tail).map (⟨f p, 1, 1, false⟩ :: ·)
  | .range b e s :: ss, ds =>
    (lowerView p ss ds.tail).map (⟨b p, rangeSize (b p) (e p) (s p), s p, true⟩ :: ·)
  | .all :: _, _ => none

/-- BaseModelicaToTensor.cpp:310-365, `TensorInsertSliceOpLowering`: for each dimension of the
destination, with the remaining dimensions of the value. The failure of the assertions at lines 320
and 355 is `none`. -/
def lowerInsert (p : Point) : List ℕ → List Sub → List ℕ → Option (List Dim)
  | [], _, _ => some []
  | _ :: ds, [], n :: vs => (lowerInsert p ds [] vs).map (⟨0, n, 1, true⟩ :: ·)
  | _ :: _, [], [] => none
  | _ :: ds, .at f :: ss, vs => (lowerInsert p ds ss vs).map (⟨f p, 1, 1, false⟩ :: ·)
  | _ :: ds, .range b e s :: ss, n :: vs =>
    (lowerInsert p ds ss vs).map (⟨if 0 ≤ s p then b p else e p, n, s p, true⟩ :: ·)
  | _ :: _, .range _ _ _ :: _, [] => none
  | _ :: _, .all :: _, _ => none

end Marco.Views
