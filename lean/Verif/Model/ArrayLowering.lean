import Mathlib.Data.Rat.Floor

/-!
# Model of the conversion of the operations on arrays to the `linalg` dialect
(`/repo/lib/Codegen/Conversion/BaseModelicaToLinalg/BaseModelicaToLinalg.cpp`)

An operation on arrays becomes a few operations of the `tensor` and `linalg` dialects. The model runs these operations: a
tensor has a static type, with sizes that may be unknown, sizes at run time and elements. The elements are rational numbers,
those of a tensor of integers are integers; overflow and rounding are left out.

What `tensor.empty` contains is not specified: the contents are a parameter.

The operations of the `linalg` dialect are those of the definition of that dialect (part of MLIR, not of the repository): a
`linalg` operation that reduces (`dot`, `vecmat`, `matmul`) adds to its output operand.
-/

namespace Marco.Linalg

/-- `i64` and `f64`: `/repo/lib/Codegen/Conversion/BaseModelicaCommon/TypeConverter.cpp:39-66`. The booleans are left out. -/
inductive ETy where
  | int
  | real
  deriving DecidableEq, Repr

/-- A tensor type: the static sizes (`none` for `ShapedType::kDynamic`) and the type of the elements. -/
structure TTy where
  dims : List (Option Nat)
  elem : ETy
  deriving DecidableEq, Repr

/-- A tensor at run time. -/
structure Tensor where
  ty : TTy
  shape : List Nat
  get : List Nat → ℚ

/-- A value: a scalar or a tensor. -/
inductive Val where
  | scalar (t : ETy) (x : ℚ)
  | tensor (t : Tensor)

/-- How the compilation and the run of an operation end. -/
inductive Out (α : Type) where
  | ok (a : α)
  /-- the type of the result can not be inferred: `builder.create` stops the compiler -/
  | fatal
  /-- no pattern applies, and the conversion to the core dialects fails
  (`/repo/lib/Codegen/Conversion/BaseModelicaToMLIRCore/BaseModelicaToMLIRCore.cpp:81-88`) -/
  | unconverted
  /-- the operations created are rejected by the verifier -/
  | invalid
  /-- the sizes at run time do not fit -/
  | ub

/-- The sequence of two steps. -/
def Out.bind {α β : Type} : Out α → (α → Out β) → Out β
  | .ok a, f => f a
  | .fatal, _ => .fatal
  | .unconverted, _ => .unconverted
  | .invalid, _ => .invalid
  | .ub, _ => .ub

/-- `/repo/lib/Dialect/BaseModelica/IR/Dialect.cpp:197-263` (`getMostGenericScalarType`) for `i64` and `f64`, and likewise for
`IntegerType` and `RealType` -/
def mostGeneric : ETy → ETy → ETy
  | .int, t => t
  | .real, _ => .real

/-- `/repo/lib/Codegen/Conversion/BaseModelicaToArith/BaseModelicaToArith.cpp:84-200`: the conversion of a scalar, `fptosi` rounds
towards zero -/
def castElem : ETy → ETy → ℚ → ℚ
  | .real, .int, x => if 0 ≤ x then (⌊x⌋ : ℚ) else (⌈x⌉ : ℚ)
  | _, _, x => x

/-- `/repo/lib/Codegen/Conversion/BaseModelicaToLinalg/BaseModelicaToLinalg.cpp:39-56` (`collectDynamicDimensionSizes`): for each
unknown size of the type, the size of the same dimension of the source -/
def collect : List (Option Nat) → List Nat → List Nat
  | none :: ds, s :: ss => s :: collect ds ss
  | some _ :: ds, _ :: ss => collect ds ss
  | _, _ => []

/-- The sizes of a tensor of some type: the operands of `tensor.empty` and `tensor.splat` are those of the unknown sizes. -/
def fill : List (Option Nat) → List Nat → List Nat
  | some n :: ds, ss => n :: fill ds ss
  | none :: ds, s :: ss => s :: fill ds ss
  | none :: ds, [] => 0 :: fill ds []
  | [], _ => []

/-- `tensor.empty` -/
def empty (junk : List Nat → ℚ) (ty : TTy) (dyn : List Nat) : Tensor :=
  { ty := ty, shape := fill ty.dims dyn, get := junk }

/-- `tensor.splat`: the type of the scalar has to be that of the elements. -/
def splat (t : ETy) (x : ℚ) (ty : TTy) (dyn : List Nat) : Out Tensor :=
  if t = ty.elem then .ok { ty := ty, shape := fill ty.dims dyn, get := fun _ => x } else .invalid

/-- `linalg.add`, `linalg.sub`, `linalg.mul`, `linalg.div` -/
inductive Ew where
  | add
  | sub
  | mul
  | div
  deriving DecidableEq, Repr

/-- The operation on the elements: `linalg.div` of integers is `arith.divsi`. -/
def Ew.eval : Ew → ETy → ℚ → ℚ → ℚ
  | .add, _, x, y => x + y
  | .sub, _, x, y => x - y
  | .mul, _, x, y => x * y
  | .div, .real, x, y => x / y
  | .div, .int, x, y => castElem .real .int (x / y)

/-- An element-wise `linalg` operation: the types of the elements have to be the same for all the operands, the sizes too. A
mismatch of static sizes, which is found by the verifier, is not told from one at run time. -/
def elemwise (o : Ew) (a b dest : Tensor) : Out Tensor :=
  if a.ty.elem = dest.ty.elem ∧ b.ty.elem = dest.ty.elem then
    if a.shape = dest.shape ∧ b.shape = dest.shape then
      .ok { dest with get := fun p => o.eval dest.ty.elem (a.get p) (b.get p) }
    else .ub
  else .invalid

/-- A `linalg.generic` or `linalg.map` with a function on the elements. -/
def mapTensor (f : ℚ → ℚ) (a dest : Tensor) : Out Tensor :=
  if a.shape = dest.shape then .ok { dest with get := fun p => f (a.get p) } else .ub

/-- `/repo/lib/Codegen/Conversion/BaseModelicaToLinalg/BaseModelicaToLinalg.cpp:58-119` (`CastOpLowering`) -/
def castTensor (junk : List Nat → ℚ) (ty : TTy) (a : Tensor) : Out Tensor :=
  if a.ty = ty then .ok a
  else mapTensor (castElem a.ty.elem ty.elem) a (empty junk ty (collect ty.dims a.shape))

/-- The sum of a reduction, in the order of the loop, onto a value. -/
def accumulate (x : ℚ) (n : Nat) (f : Nat → ℚ) : ℚ := (List.range n).foldl (fun s k => s + f k) x

/-- `linalg.dot` -/
def dot (a b dest : Tensor) : Out Tensor :=
  match a.shape, b.shape, dest.shape with
  | [k], [k'], [] =>
    if k = k' then
      .ok { dest with get := fun p => accumulate (dest.get p) k fun i => a.get [i] * b.get [i] }
    else .ub
  | _, _, _ => .ub

/-- `linalg.vecmat` -/
def vecmat (a b dest : Tensor) : Out Tensor :=
  match a.shape, b.shape, dest.shape with
  | [k], [k', n], [n'] =>
    if k = k' ∧ n = n' then
      .ok { dest with get := fun p => accumulate (dest.get p) k fun i => a.get [i] * b.get (i :: p) }
    else .ub
  | _, _, _ => .ub

/-- `linalg.matmul` -/
def matmul (a b dest : Tensor) : Out Tensor :=
  match a.shape, b.shape, dest.shape with
  | [m, k], [k', n], [m', n'] =>
    if k = k' ∧ m = m' ∧ n = n' then
      .ok { dest with get := fun p =>
              accumulate (dest.get p) k fun i => a.get [p.headD 0, i] * b.get [i, p.tail.headD 0] }
    else .ub
  | _, _, _ => .ub

/-- `linalg.transpose` with the permutation `[1, 0]` -/
def transposeOp (a dest : Tensor) : Out Tensor :=
  match a.shape, dest.shape with
  | [m, n], [n', m'] =>
    if m = m' ∧ n = n' then .ok { dest with get := fun p => a.get p.reverse } else .ub
  | _, _ => .ub

/-- The static sizes of the result of an element-wise operation:
`/repo/lib/Dialect/BaseModelica/IR/Ops.cpp:2401-2424` (`AddOp`), `3061-3084` (`SubOp`), `2785-2808` (`AddEWOp`), `3440-3463`
(`SubEWOp`), `4217-4240` (`MulEWOp`), `4859-4882` (`DivEWOp`) -/
def mergeDims : List (Option Nat) → List (Option Nat) → Option (List (Option Nat))
  | [], [] => some []
  | some a :: as, some b :: bs => if a = b then (mergeDims as bs).map (some a :: ·) else none
  | some a :: as, none :: bs => (mergeDims as bs).map (some a :: ·)
  | none :: as, b :: bs => (mergeDims as bs).map (b :: ·)
  | _, _ => none

/-- Two tensors: `/repo/lib/Codegen/Conversion/BaseModelicaToLinalg/BaseModelicaToLinalg.cpp:389-458` (`AddOpLowering`), `572-641`
(`SubOpLowering`), `1100-1169` (`MulEWOpTensorsLowering`), `1325-1394` (`DivEWOpTensorsLowering`); `AddEWOp` and `SubEWOp` on tensors
become `AddOp` and `SubOp` (460-480, 643-663). Here `req` is the type requested for the result. -/
def lowerTensors (junk : List Nat → ℚ) (o : Ew) (l r : Tensor) (req : TTy) : Out Tensor :=
  if l.ty.dims.length ≠ r.ty.dims.length ∨ req.dims.length ≠ l.ty.dims.length then .unconverted
  else
    let gen := mostGeneric l.ty.elem r.ty.elem
    (castTensor junk { l.ty with elem := gen } l).bind fun l' =>
    (castTensor junk { r.ty with elem := gen } r).bind fun r' =>
    (elemwise o l' r' (empty junk { req with elem := gen } (collect req.dims l'.shape))).bind fun res =>
    castTensor junk req res

/-- A scalar and a tensor, the tensor being the first operand of the `linalg` operation:
`/repo/lib/Codegen/Conversion/BaseModelicaToLinalg/BaseModelicaToLinalg.cpp:482-532` (`AddEWOMixedLowering`), `1171-1221`
(`MulEWOMixedLowering`), `791-849` (`MulOpScalarProductLowering`), `1261-1323` (`DivOpTensorScalarLowering`). The tensor is cast, the
scalar is not. -/
def lowerMixed (junk : List Nat → ℚ) (o : Ew) (st : ETy) (x : ℚ) (t : Tensor) (req : TTy) : Out Tensor :=
  let gen := mostGeneric t.ty.elem st
  (castTensor junk { t.ty with elem := gen } t).bind fun t' =>
  let dyn := collect t'.ty.dims t'.shape
  (splat st x t'.ty dyn).bind fun s =>
  (elemwise o t' s (empty junk t'.ty dyn)).bind fun res =>
  castTensor junk req res

/-- A scalar and a tensor: `/repo/lib/Codegen/Conversion/BaseModelicaToLinalg/BaseModelicaToLinalg.cpp:665-726`
(`SubEWOpScalarTensorLowering`), `1396-1457` (`DivEWOpScalarTensorLowering`). Both are cast; the destination is of the type the tensor
had before (`rhsTensorType`). -/
def lowerScalarTensor (junk : List Nat → ℚ) (o : Ew) (st : ETy) (x : ℚ) (t : Tensor) (req : TTy) : Out Tensor :=
  let gen := mostGeneric st t.ty.elem
  let x' := castElem st gen x
  (castTensor junk { t.ty with elem := gen } t).bind fun t' =>
  let dyn := collect t.ty.dims t'.shape
  (splat gen x' t'.ty dyn).bind fun s =>
  (elemwise o s t' (empty junk t.ty dyn)).bind fun res =>
  castTensor junk req res

/-- A tensor and a scalar: `/repo/lib/Codegen/Conversion/BaseModelicaToLinalg/BaseModelicaToLinalg.cpp:728-789`
(`SubEWOpTensorScalarLowering`), `1459-1520` (`DivEWOpTensorScalarLowering`). The destination is of the type the tensor had before
(`lhsTensorType`). -/
def lowerTensorScalar (junk : List Nat → ℚ) (o : Ew) (t : Tensor) (st : ETy) (x : ℚ) (req : TTy) : Out Tensor :=
  let gen := mostGeneric t.ty.elem st
  let x' := castElem st gen x
  (castTensor junk { t.ty with elem := gen } t).bind fun t' =>
  let dyn := collect t.ty.dims t'.shape
  (splat gen x' t'.ty dyn).bind fun s =>
  (elemwise o t' s (empty junk t.ty dyn)).bind fun res =>
  castTensor junk req res

/-- `/repo/lib/Codegen/Conversion/BaseModelicaToLinalg/BaseModelicaToLinalg.cpp:855-913` (`MulOpCrossProductLowering`) -/
def lowerDot (junk : List Nat → ℚ) (l r : Tensor) (req : ETy) : Out Val :=
  let gen := mostGeneric l.ty.elem r.ty.elem
  (castTensor junk { l.ty with elem := gen } l).bind fun l' =>
  (castTensor junk { r.ty with elem := gen } r).bind fun r' =>
  (dot l' r' (empty junk { dims := [], elem := gen } [])).bind fun res =>
  .ok (.scalar req (castElem gen req (res.get [])))

/-- `/repo/lib/Codegen/Conversion/BaseModelicaToLinalg/BaseModelicaToLinalg.cpp:922-981` (`MulOpVectorMatrixLowering`): the unknown size
of the result, a vector, is taken from the dimension 0 of the matrix (959-960). -/
def lowerVecmat (junk : List Nat → ℚ) (l r : Tensor) (req : TTy) : Out Tensor :=
  let gen := mostGeneric l.ty.elem r.ty.elem
  (castTensor junk { l.ty with elem := gen } l).bind fun l' =>
  (castTensor junk { r.ty with elem := gen } r).bind fun r' =>
  (vecmat l' r' (empty junk { req with elem := gen } (collect req.dims r'.shape))).bind fun res =>
  castTensor junk req res

/-- `/repo/lib/Codegen/Conversion/BaseModelicaToLinalg/BaseModelicaToLinalg.cpp:1610-1656` (`TransposeOpLowering`); the type of the
result is that of `/repo/lib/Dialect/BaseModelica/IR/Ops.cpp:7483-7504`. -/
def lowerTranspose (junk : List Nat → ℚ) (a : Tensor) : Out Tensor :=
  let ty : TTy := { a.ty with dims := a.ty.dims.reverse }
  transposeOp a (empty junk ty (collect ty.dims a.shape.reverse))

/-- `/repo/lib/Codegen/Conversion/BaseModelicaToLinalg/BaseModelicaToLinalg.cpp:989-1010` (`MulOpMatrixVectorLowering`): the product of
the vector and the transposed matrix -/
def lowerMatvec (junk : List Nat → ℚ) (l r : Tensor) (req : TTy) : Out Tensor :=
  (lowerTranspose junk l).bind fun l' => lowerVecmat junk r l' req

/-- `/repo/lib/Codegen/Conversion/BaseModelicaToLinalg/BaseModelicaToLinalg.cpp:1020-1098` (`MulOpMatrixLowering`) -/
def lowerMatmul (junk : List Nat → ℚ) (l r : Tensor) (req : TTy) : Out Tensor :=
  let gen := mostGeneric l.ty.elem r.ty.elem
  (castTensor junk { l.ty with elem := gen } l).bind fun l' =>
  (castTensor junk { r.ty with elem := gen } r).bind fun r' =>
  (matmul l' r' (empty junk { req with elem := gen }
    (collect req.dims (l'.shape.take 1 ++ r'.shape.drop 1)))).bind fun res =>
  castTensor junk req res

/-- The loop of `/repo/lib/Codegen/Conversion/BaseModelicaToLinalg/BaseModelicaToLinalg.cpp:1570-1594`: each step multiplies by the base
on the right, into a tensor of zeros. -/
def powLoop (base : Tensor) : Nat → Tensor → Out Tensor
  | 0, it => .ok it
  | n + 1, it =>
    (matmul it base { base with get := fun _ => 0 }).bind fun res => powLoop base n res

/-- `/repo/lib/Codegen/Conversion/BaseModelicaToLinalg/BaseModelicaToLinalg.cpp:1522-1608` (`PowOpLowering`): the loop starts from a tensor
of ones (1556-1557) and runs as often as the exponent, cast to `index` (1559-1562), tells. -/
def lowerPow (base : Tensor) (t : ETy) (x : ℚ) : Out Tensor :=
  powLoop base (castElem t .int x).num.toNat { base with get := fun _ => 1 }

/-- The binary operations. -/
inductive BinOp where
  | add
  | addEW
  | sub
  | subEW
  | mul
  | mulEW
  | div
  | divEW
  | pow
  deriving DecidableEq, Repr

/-- The element-wise operations of two tensors with the inferred type of the result. -/
def tensors (junk : List Nat → ℚ) (o : Ew) (l r : Tensor) : Out Val :=
  match mergeDims l.ty.dims r.ty.dims with
  | none => .fatal
  | some dims =>
    (lowerTensors junk o l r { dims := dims, elem := mostGeneric l.ty.elem r.ty.elem }).bind fun t =>
    .ok (.tensor t)

/-- The type of the result of an operation of a scalar and a tensor: the sizes are those of the tensor. -/
def mixedTy (st : ETy) (t : Tensor) : TTy := { t.ty with elem := mostGeneric st t.ty.elem }

/-- `/repo/lib/Dialect/BaseModelica/IR/Ops.cpp:4532-4547`: the division of a tensor by a scalar is of reals unless one of them is
something else of floating point. -/
def divTy (t : Tensor) : TTy := { t.ty with elem := .real }

/-- The result is a tensor. -/
def asTensor (t : Out Tensor) : Out Val := t.bind fun t => .ok (.tensor t)

/-- The type of a value. -/
inductive VTy where
  | scalar (t : ETy)
  | tensor (t : TTy)
  deriving DecidableEq, Repr

/-- `/repo/lib/Dialect/BaseModelica/IR/Ops.cpp:3782-3862` (`MulOp::inferReturnTypes`): there is no case for a tensor and a scalar.
The ranges, and the product of scalars, which is converted elsewhere, are left out. -/
def inferMul : Val → Val → Option VTy
  | .scalar st _, .tensor t => some (.tensor (mixedTy st t))
  | .tensor l, .tensor r =>
    let elem := mostGeneric l.ty.elem r.ty.elem
    match l.ty.dims, r.ty.dims with
    | [_], [_] => some (.scalar elem)
    | [_], [_, n] => some (.tensor { dims := [n], elem := elem })
    | [m, _], [_] => some (.tensor { dims := [m], elem := elem })
    | [m, _], [_, n] => some (.tensor { dims := [m, n], elem := elem })
    | _, _ => none
  | _, _ => none

/-- The pattern for a product, by the types of its operands (`/repo/lib/Dialect/BaseModelica/IR/Ops.cpp:4129-4174`); a product that is
none of these is left as it is (`/repo/lib/Codegen/Conversion/BaseModelicaToLinalg/BaseModelicaToLinalg.cpp:1838-1846`). A result of the
wrong rank does not occur, the cast of the result would fail. -/
def lowerMul (junk : List Nat → ℚ) : Val → Val → VTy → Out Val
  | .scalar st x, .tensor t, .tensor req => asTensor (lowerMixed junk .mul st x t req)
  | .tensor l, .tensor r, req =>
    match l.ty.dims, r.ty.dims, req with
    | [_], [_], .scalar req => lowerDot junk l r req
    | [_], [_, _], .tensor req => asTensor (lowerVecmat junk l r req)
    | [_, _], [_], .tensor req => asTensor (lowerMatvec junk l r req)
    | [_, _], [_, _], .tensor req => asTensor (lowerMatmul junk l r req)
    | _, _, _ => .unconverted
  | _, _, _ => .unconverted

/-- The operations with a tensor among the operands, with the type of the result inferred
(`/repo/lib/Dialect/BaseModelica/IR/Ops.cpp`: `AddOp` 2389-2460, `AddEWOp` 2748-2820, `SubOp` 3049-3120, `SubEWOp` 3403-3475, `MulEWOp`
4180-4252, `DivOp` 4510-4582, `DivEWOp` 4822-4894, `PowOp` 5216-5245) and the pattern that applies. -/
def lower (junk : List Nat → ℚ) : BinOp → Val → Val → Out Val
  | .add, .tensor l, .tensor r => tensors junk .add l r
  | .addEW, .tensor l, .tensor r => tensors junk .add l r
  | .addEW, .scalar st x, .tensor t => asTensor (lowerMixed junk .add st x t (mixedTy st t))
  | .addEW, .tensor t, .scalar st x => asTensor (lowerMixed junk .add st x t (mixedTy st t))
  | .sub, .tensor l, .tensor r => tensors junk .sub l r
  | .subEW, .tensor l, .tensor r => tensors junk .sub l r
  | .subEW, .scalar st x, .tensor t => asTensor (lowerScalarTensor junk .sub st x t (mixedTy st t))
  | .subEW, .tensor t, .scalar st x => asTensor (lowerTensorScalar junk .sub t st x (mixedTy st t))
  | .mulEW, .tensor l, .tensor r => tensors junk .mul l r
  | .mulEW, .scalar st x, .tensor t => asTensor (lowerMixed junk .mul st x t (mixedTy st t))
  | .mulEW, .tensor t, .scalar st x => asTensor (lowerMixed junk .mul st x t (mixedTy st t))
  | .mul, l, r =>
    match inferMul l r with
    | none => .fatal
    | some ty => lowerMul junk l r ty
  | .div, .tensor t, .scalar st x => asTensor (lowerMixed junk .div st x t (divTy t))
  | .divEW, .tensor l, .tensor r => tensors junk .div l r
  | .divEW, .scalar st x, .tensor t => asTensor (lowerScalarTensor junk .div st x t (mixedTy st t))
  | .divEW, .tensor t, .scalar st x => asTensor (lowerTensorScalar junk .div t st x (mixedTy st t))
  | .pow, .tensor t, .scalar st x => asTensor (lowerPow t st x)
  | _, _, _ => .fatal

/-- The fold of an operation with the trait `Commutative`: a constant operand goes to the right of one that is not. The product has
the trait: `/repo/include/marco/Dialect/BaseModelica/IR/Ops.td:1716-1717`. -/
def commuteOperands (lc rc : Bool) (l r : Val) : Val × Val := if lc && !rc then (r, l) else (l, r)

/-- The product after the fold: the operation keeps the type of its result, and the pattern is chosen by the operands there are
now. -/
def lowerFolded (junk : List Nat → ℚ) (lc rc : Bool) (l r : Val) : Out Val :=
  match inferMul l r with
  | none => .fatal
  | some ty =>
    let (l', r') := commuteOperands lc rc l r
    lowerMul junk l' r' ty

end Marco.Linalg
