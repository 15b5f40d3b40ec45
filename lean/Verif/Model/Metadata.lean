import Verif.Model.RTreeUpdate
import Verif.Model.IndexSet
import Verif.Model.VariableFilter

/-!
# Model of the description of the variables that the simulation program carries

`/repo/lib/Codegen/Conversion/BaseModelicaToRuntime/BaseModelicaToRuntime.cpp` collects for every
variable of the model its name, rank, printable indices, derivative and getter;
`/repo/lib/Codegen/Conversion/RuntimeModelMetadataConversion/RuntimeModelMetadataConversion.cpp`
turns each collection into a function of the simulation program, which the runtime library calls with
the number of a variable.

Simplifications:
* A function of the program is its value: a `cf.switch` is the list of its cases, the blocks are the
  results they lead to. Blocks shared by equal ranges are not shared here (equality of ranges is the
  one of their order, C05). The strings are lists of characters.
* `llvm::DenseMap` and `llvm::DenseSet` are visited in an unspecified order: two functions that permute
  the entries are parameters of the model.
* The derivatives map is a pair of functions between names.
* The values of the variables are given by an environment; the conversion to `f64` is not modelled.
* An access to a destroyed element of a vector is undefined behaviour (`Err.ub`), also where the
  storage is still there.
-/

namespace Marco.Metadata
open Marco IndexSet RTree VF

/-- A `VariableOp`: its name and its static shape (BaseModelicaToRuntime.cpp:565-570, 592-593). -/
structure MVar where
  name : Name
  shape : List Nat
  deriving DecidableEq, Repr

/-- The parts of the `ModelOp` that are used: the variables in the order of the body, and the
derivatives map (`getDerivative`, `getDerivedVariable`). -/
structure MModel where
  vars : List MVar
  der : Name → Option Name
  state : Name → Option Name

/-- lib/Dialect/BaseModelica/IR/Dialect.cpp:802, `isReservedVariable`. -/
def isReserved (name : Name) : Bool := ['_', '_'].isPrefixOf name

/-- The variables that are visited by the loops of BaseModelicaToRuntime.cpp:565-568, 587-590, 662-665,
723-726 and 757-760. -/
def visited (m : MModel) : List MVar := m.vars.filter fun v => !isReserved v.name

/-- BaseModelicaToRuntime.cpp:540-555, `createNumOfVariablesOp`. -/
def numOfVariables (m : MModel) : Int := (m.vars.countP fun v => !isReserved v.name : Nat)

/-- BaseModelicaToRuntime.cpp:557-577, `createVariableNamesOp`. -/
def names (m : MModel) : List Name := (visited m).map (·.name)

/-- BaseModelicaToRuntime.cpp:579-600, `createVariableRanksOp`. -/
def ranks (m : MModel) : List Int := (visited m).map fun v => (v.shape.length : Int)

/-- An element of `mlir::runtime::PrintableIndicesList`: a boolean for scalars, a set for arrays. -/
inductive PrintInfo where
  | scalar (visible : Bool)
  | array (indices : IndexSet)

/-- A box of `VF.printable`. -/
def toBox (b : List (ℤ × ℤ)) : Box := b.map fun r => ⟨r.1, r.2⟩

/-- BaseModelicaToRuntime.cpp:602-638, `getPrintableIndices`: the boxes are added one by one. -/
def printableIndices (fuel : Nat) (shape : List Nat) (filters : List Info) : Res IndexSet :=
  insertBoxes cfg fuel IndexSet.empty ((printable shape filters).map toBox)

/-- BaseModelicaToRuntime.cpp:668-680: the answer of the filter. -/
def filters (match_ : Name → Name → Bool) (f : Filter) (m : MModel) (v : MVar) : List Info :=
  match m.state v.name with
  | some s => f.getVariableDerInfo match_ s v.shape.length
  | none => f.getVariableInfo match_ v.name v.shape.length

/-- BaseModelicaToRuntime.cpp:682-694: the entry of one variable. -/
def printInfo (fuel : Nat) (match_ : Name → Name → Bool) (f : Filter) (m : MModel) (v : MVar) :
    Res PrintInfo :=
  if v.shape.isEmpty then .ok (.scalar ((filters match_ f m v).any (·.visible)))
  else do
    let s ← printableIndices fuel v.shape (filters match_ f m v)
    return .array s

/-- BaseModelicaToRuntime.cpp:640-701, `createPrintableIndicesOp`. -/
def printInfos (fuel : Nat) (match_ : Name → Name → Bool) (f : Filter) (m : MModel) :
    Res (List PrintInfo) :=
  (visited m).mapM (printInfo fuel match_ f m)

/-- BaseModelicaToRuntime.cpp:709-716: the position of a name among all the variables. -/
def position (m : MModel) (n : Name) : Option Int := ((m.vars.map (·.name)).idxOf? n).map Int.ofNat

/-- BaseModelicaToRuntime.cpp:728-739: the entry of one variable; `none` is `mlir::failure()`. -/
def derivativeOf (m : MModel) (v : MVar) : Option Int :=
  match m.der v.name with
  | some d => position m d
  | none => some (-1)

/-- BaseModelicaToRuntime.cpp:703-746, `createDerivativesMapOp`. -/
def derivatives (m : MModel) : Option (List Int) := (visited m).mapM (derivativeOf m)

/-- A `cf.switch`: the result of the case with that value, or the default one. -/
def switch {α : Type} (cases : List (Int × α)) (dflt : α) (x : Int) : α :=
  ((cases.find? fun c => c.1 == x).map (·.2)).getD dflt

/-- RuntimeModelMetadataConversion.cpp:155-159, 228-232, 688-692, 762-766: the cases are numbered. -/
def enumCases {α : Type} (l : List α) : List (Int × α) := l.zipIdx.map fun x => ((x.2 : Int), x.1)

/-- RuntimeModelMetadataConversion.cpp:335-354: the printable variables. -/
def printableVariables (infos : List PrintInfo) : List Nat :=
  infos.zipIdx.filterMap fun x =>
    match x.1 with
    | .scalar b => if b then some x.2 else none
    | .array s => if s.isEmpty then none else some x.2

/-- RuntimeModelMetadataConversion.cpp:274-288: the ranges of the arrays. -/
def printableMap (infos : List PrintInfo) : List (Nat × List Box) :=
  infos.zipIdx.filterMap fun x =>
    match x.1 with
    | .scalar _ => none
    | .array s => if s.isEmpty then none else some (x.2, s.compactRanges)

/-- RuntimeModelMetadataConversion.cpp:310-383, `createIsPrintableFunction`. -/
def isPrintable (vs : List Nat) : Int → Bool :=
  switch (vs.map fun (v : Nat) => ((v : Int), true)) false

/-- RuntimeModelMetadataConversion.cpp:385-450, `createGetVariableNumOfPrintableRangesFunction`; the
variables are grouped by the number of their ranges there, which changes the order of the cases. -/
def numRanges (entries : List (Nat × List Box)) : Int → Int :=
  switch ((entries.filter fun e => !e.2.isEmpty).map fun e => ((e.1 : Int), (e.2.length : Int))) 0

/-- RuntimeModelMetadataConversion.cpp:546-587: the block of a multidimensional range, with the blocks
of its ranges (526-543). -/
def boxBlock (get : Range → Int) (b : Box) (d : Int) : Int := switch (enumCases (b.map get)) (-1) d

/-- RuntimeModelMetadataConversion.cpp:595-640: the block of a variable. -/
def variableBlock (get : Range → Int) (rs : List Box) (k d : Int) : Int :=
  switch (enumCases (rs.map fun b => boxBlock get b d)) (-1) k

/-- RuntimeModelMetadataConversion.cpp:642-649: the switch of the entry block. -/
def boundary (get : Range → Int) (entries : List (Nat × List Box)) (v k d : Int) : Int :=
  switch (entries.map fun e => ((e.1 : Int), variableBlock get e.2 k d)) (-1) v

/-- RuntimeModelMetadataConversion.cpp:621-633: `n` more elements are added to `caseOperands`, which
has `size` elements, room for `cap` of them and has been moved `buf` times; the buffers to which the
references point. An `llvm::SmallVector` of `llvm::SmallVector<mlir::Value, 1>` (24 bytes) has room for
two elements, and grows from `cap` to `2 * cap + 1`. -/
def growth : Nat → Nat → Nat → Nat → List Nat
  | 0, _, _, _ => []
  | n + 1, size, cap, buf =>
    if size = cap then (buf + 1) :: growth n (size + 1) (2 * cap + 1) (buf + 1)
    else buf :: growth n (size + 1) cap buf

/-- All the references point to the present buffer (they are read at 635-639). -/
def alive (n : Nat) : Bool :=
  (growth n 0 2 0).all fun b => b == (growth n 0 2 0).getLastD 0

/-- RuntimeModelMetadataConversion.cpp:478-652, `createGetVariablePrintableRangeBoundariesFunction`. -/
def createBoundary (get : Range → Int) (entries : List (Nat × List Box)) :
    Res (Int → Int → Int → Int) :=
  if entries.all fun e => alive e.2.length then .ok (boundary get entries) else .error .ub

/-- The environment of the getters: the value of an element of a variable. -/
abbrev Env (V : Type) := Name → List Int → V

/-- BaseModelicaToRuntime.cpp:765-789 with RuntimeToFunc.cpp:77-132: the getter reads as many indices
from the memory as the variable has dimensions. -/
def getter {V : Type} (v : MVar) (σ : Env V) (mem : List Int) : V := σ v.name (mem.take v.shape.length)

/-- RuntimeModelMetadataConversion.cpp:722-796, `getVariableValue`. -/
def variableValue {V : Type} [Zero V] (m : MModel) (i : Int) (σ : Env V) (mem : List Int) : V :=
  switch (enumCases ((visited m).map fun v => getter v σ mem)) 0 i

/-- The functions of the program. -/
structure Program (V : Type) where
  getNumOfVariables : Int
  getVariableName : Int → Name
  getVariableRank : Int → Int
  isPrintable : Int → Bool
  getVariableNumOfPrintableRanges : Int → Int
  getVariablePrintableRangeBegin : Int → Int → Int → Int
  getVariablePrintableRangeEnd : Int → Int → Int → Int
  getDerivative : Int → Int
  getVariableValue : Int → Env V → List Int → V

/-- The orders in which the hash tables are visited. -/
structure Orders where
  set : List Nat → List Nat
  map : List (Nat × List Box) → List (Nat × List Box)

/-- All the functions; `none` is the failure of the pass. The order of the two passes is that of the
pipeline: the collections are complete before the functions are made. -/
def program (V : Type) [Zero V] (fuel : Nat) (match_ : Name → Name → Bool) (o : Orders) (f : Filter)
    (m : MModel) : Res (Option (Program V)) := do
  let infos ← printInfos fuel match_ f m
  match derivatives m with
  | none => return none
  | some ds =>
    let entries := o.map (printableMap infos)
    let lower ← createBoundary (·.b) entries
    let upper ← createBoundary (·.e) entries
    return some
      { getNumOfVariables := numOfVariables m
        getVariableName := switch (enumCases (names m)) []
        getVariableRank := switch (enumCases (ranks m)) 0
        isPrintable := isPrintable (o.set (printableVariables infos))
        getVariableNumOfPrintableRanges := numRanges entries
        getVariablePrintableRangeBegin := lower
        getVariablePrintableRangeEnd := upper
        getDerivative := switch (enumCases ds) (-1)
        getVariableValue := variableValue m }

end Marco.Metadata
