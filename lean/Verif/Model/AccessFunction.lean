import Verif.Model.DimensionAccess

/-!
# Model of `marco::modeling::AccessFunction` (`/repo/lib/Modeling/AccessFunction*.cpp`)

`mlir::simplifyAffineExpr` / `simplifyAffineMap` are not part of the repository: the model is
parametric in a `Simplifier`, and the properties are proved for every simplifier that preserves
the value of the expressions and introduces no division.
-/

namespace Marco

/-- `mlir::AffineMap` without symbols: number of dimensions and results. -/
structure AffineMap where
  dims : Nat
  results : List AExpr
deriving DecidableEq, Repr

namespace AExpr

/-- No division occurs in the expression. -/
def NoDiv : AExpr → Prop
  | const _ => True
  | dim _ => True
  | add a b => NoDiv a ∧ NoDiv b
  | mul a b => NoDiv a ∧ NoDiv b
  | floorDiv _ _ => False

/-- The dimensions mentioned are below `n` (checked by `mlir::AffineMap::get`). -/
def Below (n : Nat) : AExpr → Prop
  | const _ => True
  | dim d => d < n
  | add a b => Below n a ∧ Below n b
  | mul a b => Below n a ∧ Below n b
  | floorDiv a b => Below n a ∧ Below n b

/-- `AffineExpr::replaceDims`: substitution of the dimensions. -/
def subst (rs : List AExpr) : AExpr → AExpr
  | const v => const v
  | dim d => rs.getD d (dim d)
  | add a b => add (subst rs a) (subst rs b)
  | mul a b => mul (subst rs a) (subst rs b)
  | floorDiv a b => floorDiv (subst rs a) (subst rs b)

end AExpr

/-- The contract of `mlir::simplifyAffineExpr` (AccessFunction.cpp:54, 68, 78) that is relied
upon. -/
structure Simplifier where
  /-- The function, given the number of dimensions. -/
  fn : Nat → AExpr → AExpr
  /-- The value is preserved. -/
  eval_eq : ∀ n e p v, n ≤ p.length → e.eval p = some v → (fn n e).eval p = some v
  /-- No division is introduced. -/
  noDiv : ∀ n e, e.NoDiv → (fn n e).NoDiv

/-- The five kinds of access functions: AccessFunctionEmpty, AccessFunctionAffineConstant,
AccessFunctionConstant, AccessFunctionRotoTranslation, AccessFunctionGeneric (.cpp). The first,
second and fourth hold an affine map (AccessFunctionAffineMap.cpp:18-20), the others a list of
dimension accesses (AccessFunctionGeneric.cpp:10-27). -/
inductive AccessFn where
  | empty (m : AffineMap)
  | affConst (m : AffineMap)
  | const (n : Nat) (rs : List DimAccess)
  | roto (m : AffineMap)
  | generic (n : Nat) (rs : List DimAccess)

namespace DimAccess

/-- `isa<DimensionAccessConstant>`. -/
def isConst : DimAccess → Bool
  | const _ => true
  | _ => false

/-- `isa<DimensionAccessDimension>`. -/
def isDim : DimAccess → Bool
  | dim _ => true
  | _ => false

/-- AccessFunctionConstant.cpp:16-20. -/
def isConstLike : DimAccess → Bool
  | const _ => true
  | range _ => true
  | indices .. => true
  | _ => false

/-- AccessFunctionRotoTranslation.cpp:20-40. -/
def isRotoLike : DimAccess → Bool
  | dim _ => true
  | const _ => true
  | add a b => (a.isDim && b.isConst) || (a.isConst && b.isDim)
  | _ => false

/-- `FakeDimensionsMap`: additional dimension ↦ the access it stands for
(include/marco/Modeling/DimensionAccess.h). -/
abbrev Fake := List (Nat × DimAccess)

/-- `getAffineExpr(numOfDimensions, fakeDimensionsMap)`:
DimensionAccess{Constant,Dimension}.cpp:64-69, DimensionAccess{Add,Sub,Mul,Div}.cpp:101-111,
DimensionAccessRange.cpp:77-86, DimensionAccessIndices.cpp:76-85. -/
def extExpr (n : Nat) : DimAccess → Fake → AExpr × Fake
  | const v, f => (.const v, f)
  | dim d, f => (.dim d, f)
  | add a b, f =>
    let (x, f) := extExpr n a f
    let (y, f) := extExpr n b f
    (.add x y, f)
  | sub a b, f =>
    let (x, f) := extExpr n a f
    let (y, f) := extExpr n b f
    (.add x (.mul y (.const (-1))), f)
  | mul a b, f =>
    let (x, f) := extExpr n a f
    let (y, f) := extExpr n b f
    (.mul x y, f)
  | div a b, f =>
    let (x, f) := extExpr n a f
    let (y, f) := extExpr n b f
    (.floorDiv x y, f)
  | range r, f => (.dim (n + f.length), f ++ [(n + f.length, range r)])
  | indices key s d deps, f =>
    (.dim (n + f.length), f ++ [(n + f.length, indices key s d deps)])

/-- DimensionAccess.cpp:99-153, `getDimensionAccessFromExtendedMap`. -/
def fromExt (f : Fake) : AExpr → DimAccess
  | .const v => const v
  | .dim d => match f.lookup d with
    | some a => a
    | none => dim d
  | .add a b => add (fromExt f a) (fromExt f b)
  | .mul a b => mul (fromExt f a) (fromExt f b)
  | .floorDiv a b => div (fromExt f a) (fromExt f b)

/-- The loop `for (result : results) expressions.push_back(result->getAffineExpr(n, map))`
(AccessFunction.cpp:48-51, AccessFunctionGeneric.cpp:290-300). -/
def extExprs (n : Nat) : List DimAccess → Fake → List AExpr × Fake
  | [], f => ([], f)
  | a :: as, f =>
    let (x, f) := extExpr n a f
    let (xs, f) := extExprs n as f
    (x :: xs, f)

/-- DimensionAccessIndices.cpp:60-72 with DimensionAccess{Add,Sub,Mul,Div}.cpp:80-86: the spaces
(by address) for which some access declares dependencies among the dimensions. -/
def depSpaces : DimAccess → List (Nat × IndexSet)
  | add a b => depSpaces a ++ depSpaces b
  | sub a b => depSpaces a ++ depSpaces b
  | mul a b => depSpaces a ++ depSpaces b
  | div a b => depSpaces a ++ depSpaces b
  | indices key s _ deps => if deps.isEmpty then [] else [(key, s)]
  | _ => []

end DimAccess

namespace AccessFn
open DimAccess

/-- AccessFunctionAffineMap.cpp:6-16, `buildAffineMap`; `getAffineExpr` is only called on affine
accesses. -/
def buildAffineMap (n : Nat) (rs : List DimAccess) : AffineMap := ⟨n, rs.filterMap affineExpr⟩

/-- AccessFunction.cpp:13-39, the file-local `build`: choice of the kind, with the `canBeBuilt`
of AccessFunctionEmpty.cpp:6-10, AccessFunctionAffineConstant.cpp:10-19,
AccessFunctionConstant.cpp:10-21, AccessFunctionRotoTranslation.cpp:9-41. -/
def dispatch (n : Nat) (rs : List DimAccess) : AccessFn :=
  if n == 0 && rs.isEmpty then .empty (buildAffineMap n rs)
  else if rs.all isConst then .affConst (buildAffineMap n rs)
  else if rs.all isConstLike then .const n rs
  else if n != 0 && !rs.isEmpty && rs.all isRotoLike then .roto (buildAffineMap n rs)
  else .generic n rs

/-- AccessFunction.cpp:65-73, `build(AffineMap)`. -/
def buildMap (S : Simplifier) (m : AffineMap) : AccessFn :=
  dispatch m.dims (m.results.map fun e => DimAccess.build (S.fn m.dims e))

/-- AccessFunction.cpp:75-91, `fromExtendedMap`. -/
def fromExtendedMap (S : Simplifier) (m : AffineMap) (f : Fake) : AccessFn :=
  dispatch (m.dims - f.length) (m.results.map fun e => fromExt f (S.fn m.dims e))

/-- AccessFunction.cpp:42-63, `build(context, numOfDimensions, results)`. -/
def build (S : Simplifier) (n : Nat) (rs : List DimAccess) : AccessFn :=
  let (es, f) := extExprs n rs []
  let d := n + f.length
  fromExtendedMap S ⟨d, es.map (S.fn d)⟩ f

/-- `getNumOfDims`: AccessFunctionAffineMap.cpp:26-28, AccessFunctionGeneric.cpp:147. -/
def dims : AccessFn → Nat
  | .empty m => m.dims
  | .affConst m => m.dims
  | .const n _ => n
  | .roto m => m.dims
  | .generic n _ => n

/-- `getNumOfResults`: AccessFunctionAffineMap.cpp:30-32, AccessFunctionGeneric.cpp:149-151. -/
def numResults : AccessFn → Nat
  | .empty m => m.results.length
  | .affConst m => m.results.length
  | .const _ rs => rs.length
  | .roto m => m.results.length
  | .generic _ rs => rs.length

/-- `isAffine`: AccessFunctionAffineMap.cpp:38, AccessFunctionGeneric.cpp:158-163. -/
def isAffine : AccessFn → Bool
  | .const _ rs => rs.all DimAccess.isAffine
  | .generic _ rs => rs.all DimAccess.isAffine
  | _ => true

/-- `getAffineMap`: AccessFunctionAffineMap.cpp:40-42, AccessFunctionGeneric.cpp:165-174. -/
def affineMap : AccessFn → AffineMap
  | .empty m => m
  | .affConst m => m
  | .const n rs => buildAffineMap n rs
  | .roto m => m
  | .generic n rs => buildAffineMap n rs

/-- `getGeneralizedAccesses`: AccessFunctionAffineMap.cpp:73-76,
AccessFunctionGeneric.cpp:279-288. -/
def accesses : AccessFn → List DimAccess
  | .empty m => m.results.map DimAccess.build
  | .affConst m => m.results.map DimAccess.build
  | .const _ rs => rs
  | .roto m => m.results.map DimAccess.build
  | .generic _ rs => rs

/-- `getWithGivenDimensions`: AccessFunction.cpp:217-222, AccessFunctionAffineMap.cpp:68-71 and
83-90. -/
def withDims (S : Simplifier) (f : AccessFn) (r : Nat) : AccessFn :=
  match f with
  | .empty m => buildMap S ⟨max m.dims r, m.results⟩
  | .affConst m => buildMap S ⟨max m.dims r, m.results⟩
  | .roto m => buildMap S ⟨max m.dims r, m.results⟩
  | .const n rs => build S (max r n) rs
  | .generic n rs => build S (max r n) rs

/-- `mlir::AffineMap::compose(AffineMap)`: `g.compose f`, first `f` then `g`. -/
def compose (g f : AffineMap) : AffineMap := ⟨f.dims, g.results.map (AExpr.subst f.results)⟩

/-- `getExtendedAffineMap`: AccessFunctionAffineMap.cpp:78-81, AccessFunctionGeneric.cpp:290-300. -/
def extendedMap : AccessFn → AffineMap × Fake
  | .const n rs => let (es, f) := extExprs n rs []; (⟨n + f.length, es⟩, f)
  | .generic n rs => let (es, f) := extExprs n rs []; (⟨n + f.length, es⟩, f)
  | .empty m => (m, [])
  | .affConst m => (m, [])
  | .roto m => (m, [])

/-- AccessFunction.cpp:130-196, `combine`. -/
def combine (S : Simplifier) (self other : AccessFn) : AccessFn :=
  let o := other.withDims S self.numResults
  if self.isAffine && o.isAffine then buildMap S (compose o.affineMap self.affineMap)
  else
    let (rhsMap, rhsFake) := o.extendedMap
    let extra := o.dims - other.dims
    let c := rhsFake.length
    let lhsDims := (self.withDims S (self.dims + c)).dims
    let lhsResults := self.accesses ++ (List.range c).map fun i => DimAccess.dim (self.dims + i)
    let lhs := build S lhsDims lhsResults
    let (lhsMap, _) := lhs.extendedMap
    let resFake := (List.range c).filterMap fun i =>
      (rhsFake.lookup (other.dims + extra + i)).map fun a => (self.dims + i, a)
    fromExtendedMap S (compose rhsMap lhsMap) resFake

/-! ### Mapping -/

/-- AccessFunctionAffineMap.cpp:48-56, `map(point)`: the coordinates of the mapped point. -/
def affinePoint (m : AffineMap) (p : Point) : Option Point :=
  if p.length < m.dims then none else m.results.mapM fun e => e.eval p

/-- AccessFunctionGeneric.cpp:225-233 and 256-264: append the sets of the results. -/
def appendAll (rs : List DimAccess) (p : Point) (env : Env) (acc : IndexSet) : Option IndexSet :=
  rs.foldlM (fun acc r => (DimAccess.map r p env).map fun a =>
    if acc.isEmpty then a else acc.append a) acc

/-- AccessFunctionGeneric.cpp:238-267, the recursive `map` over the iteration spaces with
dependent dimensions. Returns the accumulated set and the selection of points (passed by
reference). -/
def mapDeps (rs : List DimAccess) (p : Point) :
    List (Nat × IndexSet) → IndexSet × Env → Option (IndexSet × Env)
  | [], (acc, env) => (appendAll rs p env IndexSet.empty).map fun s => (acc.union s, env)
  | (key, space) :: sps, st => do
    let (acc, env) ← space.points.foldlM
      (fun st q => mapDeps rs p sps (st.1, (key, q) :: st.2)) st
    (appendAll rs p env IndexSet.empty).map fun s => (acc.union s, env)

/-- Keep one occurrence of each key (`DenseSet`, AccessFunctionGeneric.cpp:206-208; the
iteration order of the set is irrelevant to the points computed). -/
def uniqueKeys : List (Nat × IndexSet) → List (Nat × IndexSet)
  | [] => []
  | x :: xs => if xs.any fun y => y.1 == x.1 then uniqueKeys xs else x :: uniqueKeys xs

/-- AccessFunctionGeneric.cpp:194-236, `map(point)`. -/
def genericMap (rs : List DimAccess) (p : Point) : Option IndexSet :=
  let sps := uniqueKeys (rs.flatMap depSpaces)
  if sps.isEmpty then appendAll rs p [] IndexSet.empty
  else do
    let (acc, env) ← mapDeps rs p sps (IndexSet.empty, [])
    appendAll rs p env acc

/-- `map(point)`: AccessFunctionEmpty.cpp:60, AccessFunctionAffineMap.cpp:48-56,
AccessFunctionGeneric.cpp:194-236. `none`: undefined behaviour. -/
def mapPoint : AccessFn → Point → Option IndexSet
  | .empty _, _ => some IndexSet.empty
  | .affConst m, p => (affinePoint m p).map fun q => IndexSet.ofPoints [q]
  | .roto m, p => (affinePoint m p).map fun q => IndexSet.ofPoints [q]
  | .const _ rs, p => genericMap rs p
  | .generic _ rs, p => genericMap rs p

/-- AccessFunctionRotoTranslation.cpp:155-183, `map(range)`. -/
def rotoMapBox (m : AffineMap) (b : Box) : Option Box := do
  let lo ← affinePoint m (b.map Range.b)
  let hi ← affinePoint m (b.map Range.e)
  some (List.zipWith (fun l u => if l == u then ⟨l, u + 1⟩ else ⟨l, u⟩) lo hi)

/-- The constants of an affine map whose results are constants (AccessFunctionAffineConstant.cpp:
99-116, `getMappedPoint`; the cast fails on other results). -/
def constResults (m : AffineMap) : Option Point :=
  m.results.mapM fun e => match e with
    | .const v => some v
    | _ => none

/-- `map(IndexSet)`: AccessFunctionEmpty.cpp:62, AccessFunctionAffineConstant.cpp:71-81,
AccessFunctionConstant.cpp:49-57, AccessFunctionRotoTranslation.cpp:185-194,
AccessFunctionGeneric.cpp:269-277. -/
def mapSet : AccessFn → IndexSet → Option IndexSet
  | .empty _, _ => some IndexSet.empty
  | .affConst m, s =>
    if s.isEmpty && m.dims != 0 then some IndexSet.empty
    else if m.results.isEmpty then some IndexSet.empty
    else (constResults m).map fun q => IndexSet.ofPoints [q]
  | .const n rs, s =>
    if s.isEmpty && n != 0 then some IndexSet.empty
    else genericMap rs (List.replicate n 0)
  | .roto m, s => (s.ranges.mapM (rotoMapBox m)).map IndexSet.ofRanges
  | .generic _ rs, s =>
    s.points.foldlM (fun acc p => (genericMap rs p).map acc.union) IndexSet.empty

/-! ### Inverses -/

/-- AccessFunctionRotoTranslation.cpp:315-333, `getInductionVariableIndex`. -/
def inductionVar : AExpr → Option Nat
  | .dim d => some d
  | .const _ => none
  | .add a b => pick a b
  | .mul a b => pick a b
  | .floorDiv a b => pick a b
where
  /-- Lines 322-330: the first operand that is a dimension. -/
  pick : AExpr → AExpr → Option Nat
    | .dim d, _ => some d
    | _, .dim d => some d
    | _, _ => none

/-- AccessFunctionRotoTranslation.cpp:340-360, `getOffset` (`none`: unreachable). -/
def offset : AExpr → Option Int
  | .dim _ => some 0
  | .const _ => none
  | .add a b => pick a b
  | .mul a b => pick a b
  | .floorDiv a b => pick a b
where
  /-- Lines 346-356: the first operand that is a constant. -/
  pick : AExpr → AExpr → Option Int
    | .const v, _ => some v
    | _, .const v => some v
    | _, _ => none

/-- AccessFunctionRotoTranslation.cpp:98-115: the loop marking the used dimensions (`none`: some
result uses no dimension, or one that is out of range). -/
def markUsed (n : Nat) : List AExpr → List Bool → Option (List Bool)
  | [], u => some u
  | e :: es, u => match inductionVar e with
    | none => none
    | some d => if d > n then none else markUsed n es (u.set d true)

/-- AccessFunctionRotoTranslation.cpp:91-118, `isInvertible`. (The test of line 103 lets the
dimension equal to the number of dimensions through; well-formed maps have no such dimension.) -/
def rotoInvertible (m : AffineMap) : Bool :=
  if m.dims != m.results.length then false
  else match markUsed m.dims m.results (List.replicate m.dims false) with
    | none => false
    | some u => u.all id

/-- AccessFunctionRotoTranslation.cpp:130-143: `positionsMap` and `remapped`, result by result,
starting at position `i`. -/
def inverseLoop : Nat → List AExpr → List Nat → Option (List AExpr × List Nat)
  | _, [], pos => some ([], pos)
  | i, e :: es, pos => do
    let d ← inductionVar e
    let o ← offset e
    let (rem, pos) ← inverseLoop (i + 1) es (pos.set d i)
    some (.add (.dim i) (.mul (.const o) (.const (-1))) :: rem, pos)

/-- AccessFunctionRotoTranslation.cpp:120-153, `inverse`. -/
def rotoInverse (S : Simplifier) (m : AffineMap) : Option AccessFn :=
  if !rotoInvertible m then none
  else do
    let (rem, pos) ← inverseLoop 0 m.results (List.replicate m.results.length 0)
    let re ← pos.mapM fun i => rem[i]?
    some (buildMap S ⟨m.dims, re⟩)

/-- `isInvertible`: AccessFunction.cpp:198, AccessFunctionEmpty.cpp:54,
AccessFunctionRotoTranslation.cpp:91-118. -/
def isInvertible : AccessFn → Bool
  | .empty _ => true
  | .roto m => rotoInvertible m
  | _ => false

/-- `inverse`: AccessFunction.cpp:200-202, AccessFunctionEmpty.cpp:56-58,
AccessFunctionRotoTranslation.cpp:120-153. -/
def inverse (S : Simplifier) : AccessFn → Option AccessFn
  | .empty m => some (.empty m)
  | .roto m => rotoInverse S m
  | _ => none

/-- AccessFunction.cpp:204-215, `inverseMap`: the points of the parent whose image is contained in
the accessed indices. -/
def inverseMapBase (f : AccessFn) (acc par : IndexSet) : Option IndexSet :=
  (par.points.filterMapM fun p => (f.mapPoint p).map fun s =>
    if acc.containsSet s then some p else none).map IndexSet.ofPoints

/-- AccessFunctionConstant.cpp:59-73 and AccessFunctionAffineConstant.cpp:83-97, `inverseMap`. -/
def inverseMapConst (f : AccessFn) (acc par : IndexSet) : Option IndexSet :=
  (f.mapSet par).map fun e =>
    if acc.isEmpty && !e.isEmpty then IndexSet.empty
    else if e.containsSet acc then par else IndexSet.empty

/-- AccessFunctionRotoTranslation.cpp:214-222: `usedDimensions`. -/
def usedDims (m : AffineMap) : List Bool :=
  m.results.foldl (fun u e => match inductionVar e with
    | some d => u.set d true
    | none => u) (List.replicate m.dims false)

/-- AccessFunctionRotoTranslation.cpp:214-222: `usedResults`. -/
def usedResults (m : AffineMap) : List Bool := m.results.map fun e => (inductionVar e).isSome

/-- `mlir::compressUnusedDims` and the removal of the constant results
(AccessFunctionRotoTranslation.cpp:225-236). -/
def reducedMap (m : AffineMap) : AffineMap :=
  let u := usedDims m
  let ren := (List.range m.dims).map fun d => AExpr.dim ((u.take d).count true)
  ⟨u.count true, (m.results.map (AExpr.subst ren)).filter fun e => match e with
    | .const _ => false
    | _ => true⟩

/-- AccessFunctionRotoTranslation.cpp:257-266: put the ranges of the used dimensions back among
those of the parent. -/
def expandBox : List Bool → Box → Box → Box
  | true :: u, x :: xs, _ :: ps => x :: expandBox u xs ps
  | false :: u, xs, q :: ps => q :: expandBox u xs ps
  | _, _, _ => []

/-- AccessFunctionRotoTranslation.cpp:196-211 and 275: `inverseMap` without the reduction. -/
def rotoInverseMapDirect (S : Simplifier) (m : AffineMap) (acc par : IndexSet) : Option IndexSet :=
  if acc.isEmpty && !par.isEmpty && m.results.length != 0 then some IndexSet.empty
  else match rotoInverse S m with
    | some g =>
      if !acc.isEmpty && !par.isEmpty && acc.rank == par.rank then g.mapSet acc
      else inverseMapBase (.roto m) acc par
    | none => inverseMapBase (.roto m) acc par

/-- `inverseMap` of the reduced access function (AccessFunctionRotoTranslation.cpp:238-243), in
which every dimension and every result is used, so that the reduction is not applied again. -/
def reducedInverseMap (S : Simplifier) (f : AccessFn) (acc par : IndexSet) : Option IndexSet :=
  match f with
  | .empty _ => some IndexSet.empty
  | .affConst m => inverseMapConst (.affConst m) acc par
  | .const n rs => inverseMapConst (.const n rs) acc par
  | .roto m => rotoInverseMapDirect S m acc par
  | .generic n rs => inverseMapBase (.generic n rs) acc par

/-- AccessFunctionRotoTranslation.cpp:196-276, `inverseMap`. -/
def rotoInverseMap (S : Simplifier) (m : AffineMap) (acc par : IndexSet) : Option IndexSet :=
  if acc.isEmpty && !par.isEmpty && m.results.length != 0 then some IndexSet.empty
  else if (rotoInverse S m).isSome && (!acc.isEmpty && !par.isEmpty && acc.rank == par.rank) then
    rotoInverseMapDirect S m acc par
  else
    let u := usedDims m
    let r := usedResults m
    if !u.all id || !r.all id then do
      let red ← reducedInverseMap S (buildMap S (reducedMap m)) (acc.takeDims r) (par.takeDims u)
      if u.all id then some red
      else some (IndexSet.ofRanges (par.ranges.flatMap fun q => red.ranges.map fun x =>
        expandBox u x q))
    else inverseMapBase (.roto m) acc par

/-- `inverseMap`: AccessFunctionEmpty.cpp:64-69, AccessFunctionAffineConstant.cpp:83-97,
AccessFunctionConstant.cpp:59-73, AccessFunctionRotoTranslation.cpp:196-276,
AccessFunction.cpp:204-215. -/
def inverseMap (S : Simplifier) (f : AccessFn) (acc par : IndexSet) : Option IndexSet :=
  match f with
  | .empty _ => some IndexSet.empty
  | .affConst m => inverseMapConst (.affConst m) acc par
  | .const n rs => inverseMapConst (.const n rs) acc par
  | .roto m => rotoInverseMap S m acc par
  | .generic n rs => inverseMapBase (.generic n rs) acc par

end AccessFn
end Marco
