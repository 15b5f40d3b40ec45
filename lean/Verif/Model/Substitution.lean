import Verif.Model.AccessFunction

/-!
# Model of the replacement of an access by the expression of the equation that writes it
(`/repo/lib/Dialect/BaseModelica/IR/Ops.cpp`)

The part about the iterations: at which values of its induction variables the writing equation has
to be evaluated, given the values of those of the reading equation.

Simplified: `mlir::AffineMap::dropResults` requires that the removed positions exist; here the
positions beyond the results are ignored (the accesses to one variable have as many results as the
variable has dimensions).
-/

namespace Marco

/-- `AffineExpr::isFunctionOfDim` (MLIR). -/
def AExpr.uses (d : Nat) : AExpr → Bool
  | .const _ => false
  | .dim k => k == d
  | .add a b => uses d a || uses d b
  | .mul a b => uses d a || uses d b
  | .floorDiv a b => uses d a || uses d b

namespace Subst
open AccessFn

/-- Ops.cpp:8608-8615: which results of the source access are constant expressions. -/
def constantPositions (m : AffineMap) : List Bool := m.results.map fun e => match e with
  | .const _ => true
  | _ => false

/-- `mlir::AffineMap::dropResults`: the results that are not marked. -/
def dropResults {α : Type} : List Bool → List α → List α
  | _, [] => []
  | [], rs => rs
  | true :: fs, _ :: rs => dropResults fs rs
  | false :: fs, r :: rs => r :: dropResults fs rs

/-- `mlir::getUnusedDimsBitVector`, negated: which dimensions occur in some result. -/
def occurring (m : AffineMap) : List Bool :=
  (List.range m.dims).map fun d => m.results.any (AExpr.uses d)

/-- `mlir::compressUnusedDims`: the dimensions that do not occur are removed and the others are
numbered from zero. -/
def compressDims (m : AffineMap) : AffineMap :=
  let u := occurring m
  ⟨u.count true, m.results.map
    (AExpr.subst ((List.range m.dims).map fun d => AExpr.dim ((u.take d).count true)))⟩

/-- Ops.cpp:8592-8640, `EquationTemplateOp::getReplacementTransformationAccess`. -/
def transformation (S : Simplifier) (dest src : AccessFn) : Option AccessFn :=
  match src.inverse S with
  | some inv => some (dest.combine S inv)
  | none =>
    if !src.isAffine || !dest.isAffine then none
    else
      let drop := constantPositions src.affineMap
      let reducedSrc := buildMap S (compressDims ⟨src.dims, dropResults drop src.affineMap.results⟩)
      match reducedSrc.inverse S with
      | none => none
      | some inv =>
        let reducedDest := buildMap S ⟨dest.dims, dropResults drop dest.affineMap.results⟩
        let combined := reducedDest.combine S inv
        some (buildMap S ⟨dest.dims, combined.affineMap.results⟩)

/-- Dialect.cpp:545-604, `materializeAffineExpr`, as a value: the dimensions stand for the given
values, the floor divisions become `DivOp`s between index values, which truncate
(BaseModelicaToArith.cpp:1569-1579). `none`: the dimension does not exist or the divisor is
zero. -/
def materialize (p : Point) : AExpr → Option Int
  | .const v => some v
  | .dim d => p[d]?
  | .add a b => do
    let x ← materialize p a
    let y ← materialize p b
    some (x + y)
  | .mul a b => do
    let x ← materialize p a
    let y ← materialize p b
    some (x * y)
  | .floorDiv a b => do
    let x ← materialize p a
    let y ← materialize p b
    if y = 0 then none else some (x.tdiv y)

/-- Ops.cpp:8642-8673, `EquationTemplateOp::mapInductionVariables`, with `materializeAffineMap`
(Dialect.cpp:528-543): the values given to the `n` induction variables of the source equation,
where the variables of the destination (those of the equation, then those of the reductions
enclosing the access) have the values `p`. -/
def mapInductions (t : AccessFn) (n : Nat) (p : Point) : Option Point :=
  if !t.isAffine then none
  else if t.affineMap.results.length < n then none
  else (t.affineMap.results.mapM (materialize p)).map (List.take n)

end Subst
end Marco
