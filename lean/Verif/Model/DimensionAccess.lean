import Verif.Lemmas.IndexSet

/-!
# Model of `marco::modeling::DimensionAccess` (`/repo/lib/Modeling/DimensionAccess*.cpp`)

`mlir::AffineExpr` is not part of the repository. It is modelled by its syntax (`AExpr`) and its
usual evaluation; the simplifications MLIR performs while building expressions are not modelled
here (they preserve the value, and only the value is used by the properties).

Index sets computed by repeated `+=` are modelled by rebuilding the set from the ranges of both
operands (`IndexSet.union`, `IndexSet.addPoint`): the same points. The in-place update itself is
the subject of C07/C08.
-/

namespace Marco

namespace IndexSet

/-- The sequence of points produced by `IndexSet::PointIterator`
(lib/Modeling/IndexSet.cpp:1137-1233): range by range, each range being enumerated by the iterator
of `MultidimensionalRange` (whose emitted sequence is `enum`, by `C01_iteration`). -/
def points (s : IndexSet) : List Point := enumL s.ranges

/-- Set-level model of `operator+=(const Point &)` (lib/Modeling/IndexSet.cpp:234-236). -/
def addPoint (s : IndexSet) (p : Point) : IndexSet := ofRanges (s.ranges ++ [Box.ofPoint p])

/-- Set-level model of `operator+=(const MultidimensionalRange &)`
(lib/Modeling/IndexSet.cpp:238-279). -/
def addBox (s : IndexSet) (b : Box) : IndexSet := ofRanges (s.ranges ++ [b])

/-- Set-level model of `operator+=(const IndexSet &)` (RTree.h:626-631). -/
def union (s t : IndexSet) : IndexSet := ofRanges (s.ranges ++ t.ranges)

end IndexSet

/-- `mlir::AffineExpr`, restricted to the kinds accepted by `DimensionAccess::build`
(lib/Modeling/DimensionAccess.cpp:60-97). -/
inductive AExpr where
  | const (v : Int)
  | dim (d : Nat)
  | add (a b : AExpr)
  | mul (a b : AExpr)
  | floorDiv (a b : AExpr)
deriving DecidableEq, Repr

namespace AExpr

/-- The value of an affine expression at a point; `none` if a dimension does not exist or a
divisor is not positive (MLIR gives no meaning to these). -/
def eval : AExpr → Point → Option Int
  | const v, _ => some v
  | dim d, p => p[d]?
  | add a b, p => do
    let x ← eval a p
    let y ← eval b p
    some (x + y)
  | mul a b, p => do
    let x ← eval a p
    let y ← eval b p
    some (x * y)
  | floorDiv a b, p => do
    let x ← eval a p
    let y ← eval b p
    if 0 < y then some (x.fdiv y) else none

end AExpr

/-- lib/Modeling/DimensionAccess{Constant,Dimension,Add,Sub,Mul,Div,Range,Indices}.cpp: the class
hierarchy. The space of an `Indices` access is a `shared_ptr`; `key` is its address. -/
inductive DimAccess where
  | const (v : Int)
  | dim (d : Nat)
  | add (a b : DimAccess)
  | sub (a b : DimAccess)
  | mul (a b : DimAccess)
  | div (a b : DimAccess)
  | range (r : Range)
  | indices (key : Nat) (space : IndexSet) (d : Nat) (deps : List Nat)

namespace DimAccess

/-- lib/Modeling/DimensionAccess.cpp:60-97, `build`. -/
def build : AExpr → DimAccess
  | .const v => const v
  | .dim d => dim d
  | .add a b => add (build a) (build b)
  | .mul a b => mul (build a) (build b)
  | .floorDiv a b => div (build a) (build b)

/-- `isAffine`: DimensionAccess.cpp:197 (default `false`), DimensionAccessConstant.cpp:58,
DimensionAccessDimension.cpp:59, DimensionAccess{Add,Sub,Mul,Div}.cpp:92-94. -/
def isAffine : DimAccess → Bool
  | const _ => true
  | dim _ => true
  | add a b => isAffine a && isAffine b
  | sub a b => isAffine a && isAffine b
  | mul a b => isAffine a && isAffine b
  | div a b => isAffine a && isAffine b
  | range _ => false
  | indices .. => false

/-- `isConstant`: DimensionAccess{Constant,Dimension,Add,Sub,Mul,Div,Range,Indices}.cpp (lines 56,
57, 88-90, 88-90, 88-90, 88-90, 75, 74). -/
def isConstant : DimAccess → Bool
  | const _ => true
  | dim _ => false
  | add a b => isConstant a && isConstant b
  | sub a b => isConstant a && isConstant b
  | mul a b => isConstant a && isConstant b
  | div a b => isConstant a && isConstant b
  | range _ => true
  | indices .. => true

/-- `getAffineExpr()`: DimensionAccess.cpp:199-202 (unreachable for the other kinds),
DimensionAccessConstant.cpp:60-62, DimensionAccessDimension.cpp:61-63,
DimensionAccess{Add,Sub,Mul,Div}.cpp:96-99. MLIR's `a - b` is `a + b * -1`. -/
def affineExpr : DimAccess → Option AExpr
  | const v => some (.const v)
  | dim d => some (.dim d)
  | add a b => do
    let x ← affineExpr a
    let y ← affineExpr b
    some (.add x y)
  | sub a b => do
    let x ← affineExpr a
    let y ← affineExpr b
    some (.add x (.mul y (.const (-1))))
  | mul a b => do
    let x ← affineExpr a
    let y ← affineExpr b
    some (.mul x y)
  | div a b => do
    let x ← affineExpr a
    let y ← affineExpr b
    some (.floorDiv x y)
  | range _ => none
  | indices .. => none

/-- `currentIndexSetsPoint`: the point currently selected in each iteration space. -/
abbrev Env := List (Nat × Point)

/-- DimensionAccessAdd.cpp:125-136 (the same loops are in Sub, Mul, Div): one pair of points; the
loop over the coordinates uses the rank of the first point. -/
def pointOp (f : Int → Int → Option Int) : Point → Point → Option Point
  | [], _ => some []
  | _ :: _, [] => none
  | x :: xs, y :: ys => do
    let v ← f x y
    let vs ← pointOp f xs ys
    some (v :: vs)

/-- DimensionAccessAdd.cpp:122-138: the nested loops, as one loop over the pairs. -/
def binaryOp (f : Int → Int → Option Int) (l r : IndexSet) : Option IndexSet :=
  (l.points.flatMap fun p => r.points.map fun q => (p, q)).foldlM
    (fun acc pq => (pointOp f pq.1 pq.2).map acc.addPoint) IndexSet.empty

/-- `mappedLhsPoint[i] / mappedRhsPoint[i]` of DimensionAccessDiv.cpp:131: C++ division, which
truncates; division by zero is undefined behaviour. -/
def cdiv (x y : Int) : Option Int := if y = 0 then none else some (x.tdiv y)

/-- `map(point, currentIndexSetsPoint)`: DimensionAccessConstant.cpp:70-74,
DimensionAccessDimension.cpp:71-75, DimensionAccess{Add,Sub,Mul,Div}.cpp:113-139,
DimensionAccessRange.cpp:88-92, DimensionAccessIndices.cpp:87-106. `none` is undefined behaviour
(missing coordinate, division by zero, no current point for the space). -/
def map : DimAccess → Point → Env → Option IndexSet
  | const v, _, _ => some (IndexSet.ofPoints [[v]])
  | dim d, p, _ => (p[d]?).map fun x => IndexSet.ofPoints [[x]]
  | add a b, p, env => do
    let l ← map a p env
    let r ← map b p env
    binaryOp (fun x y => some (x + y)) l r
  | sub a b, p, env => do
    let l ← map a p env
    let r ← map b p env
    binaryOp (fun x y => some (x - y)) l r
  | mul a b, p, env => do
    let l ← map a p env
    let r ← map b p env
    binaryOp (fun x y => some (x * y)) l r
  | div a b, p, env => do
    let l ← map a p env
    let r ← map b p env
    binaryOp cdiv l r
  | range r, _, _ => some (IndexSet.ofRanges [[r]])
  | indices key space d deps, _, env =>
    if deps.isEmpty then
      (space.ranges.foldlM (fun acc b => (b[d]?).map fun r => IndexSet.addBox acc [r])
        IndexSet.empty)
    else do
      let q ← env.lookup key
      let x ← q[d]?
      some (IndexSet.ofPoints [[x]])

end DimAccess
end Marco
