import Verif.Model.EulerForward

/-!
# Model of the materialization and of the initialization of the derivatives
(`/repo/lib/Dialect/BaseModelica/Transforms/DerivativesMaterialization.cpp`,
`/repo/lib/Dialect/BaseModelica/Transforms/DerivativesInitialization.cpp`)

Index sets are lists of points (their algebra is C01 to C11), and the image of an index set under an
access function is the set of the images of its points; in an equation without induction variables
the indices are constants. Records have been inlined: the path of a variable is one name. The
equations and the algorithms are processed in their order (the code does it in parallel, with locks).
-/

namespace Marco.DerMat
open Marco.Euler (points)

/-- Expressions. `get` is a `VariableGetOp` with the subscripts of the `TensorViewOp`s and of the
`TensorExtractOp` on it, `der` is `DerOp`, `red` an operation with a region, like `ReductionOp`, over a
range; the region has one more induction variable. -/
inductive Ex (K : Type) where
  | const (k : K)
  | time
  | get (v : String) (idx : List (Point → ℤ))
  | der (a : Ex K)
  | un (f : K → K) (a : Ex K)
  | bin (f : K → K → K) (a b : Ex K)
  | red (n : ℕ) (z : K) (f : K → K → K) (a : Ex K)

/-- `EquationInstanceOp` with its template: the iteration space, `none` if there are no induction
variables, and the values of the sides. -/
structure Equation (K : Type) where
  indices : Option (List Point)
  sides : List (Ex K)

/-- `ModelOp`: variables with their shapes, `DerivativesMap` (derivatives and derived indices), the
equations and the values in the algorithms. -/
structure Model (K : Type) where
  vars : List (String × List ℕ)
  derivatives : List (String × String)
  derived : List (String × Point)
  equations : List (Equation K)
  algorithms : List (List (Ex K))

/-- The pass fails, an assertion does, the generated IR is not valid. -/
inductive Err where
  | failure
  | assertion
  | invalid
  deriving DecidableEq, Repr

variable {K : Type}

/-- DerivativesMaterialization.cpp:265-300, `getShape`. -/
def getShape (m : Model K) (v : String) : Option (List ℕ) :=
  (m.vars.find? (·.1 == v)).map (·.2)

/-- DerivativesMap.cpp:397-406. -/
def getDerivative (ds : List (String × String)) (v : String) : Option String :=
  (ds.find? (·.1 == v)).map (·.2)

/-- DerivativesMaterialization.cpp:314-326, `collectDerOps`: the operands of the `DerOp`s that are
reached through operands. Those in regions are not. -/
def collectDerOps : Ex K → List (Ex K)
  | .der a => [a]
  | .un _ a => collectDerOps a
  | .bin _ a b => collectDerOps a ++ collectDerOps b
  | _ => []

/-- The operands of all the `DerOp`s, in the order of `Region::walk`. -/
def walkDerOps : Ex K → List (Ex K)
  | .der a => walkDerOps a ++ [a]
  | .un _ a => walkDerOps a
  | .bin _ a b => walkDerOps a ++ walkDerOps b
  | .red _ _ _ a => walkDerOps a
  | _ => []

/-- `AccessFunction::map` on the indices of the equation. -/
def image (indices : Option (List Point)) (idx : List (Point → ℤ)) : List Point :=
  match indices with
  | none => [idx.map (· [])]
  | some ps => ps.map fun p => idx.map (· p)

/-- DerivativesMaterialization.cpp:383-406: the derived indices of one access. -/
def derivedIndices (shape : List ℕ) (indices : Option (List Point)) (idx : List (Point → ℤ)) :
    List Point :=
  let mapped := if idx.isEmpty then [] else image indices idx
  let rank := if mapped.isEmpty then 0 else idx.length
  if rank < shape.length then
    if mapped.isEmpty then points shape
    else mapped.flatMap fun q => (points (shape.drop rank)).map (q ++ ·)
  else mapped

/-- The state of the collection: `newDifferentialVariables` and the new entries of the map. -/
structure Collected where
  names : List String
  derived : List (String × Point)

/-- `SetVector::insert` and `addDerivedIndices`. -/
def Collected.add (c : Collected) (v : String) (qs : List Point) : Collected where
  names := if v ∈ c.names then c.names else c.names ++ [v]
  derived := c.derived ++ qs.map fun q => (v, q)

/-- DerivativesMaterialization.cpp:359-414, for one `DerOp` of an equation. -/
def collectInEquation (m : Model K) (indices : Option (List Point)) (c : Collected) (a : Ex K) :
    Except Err Collected :=
  match a with
  | .get v idx =>
    match getShape m v with
    | none => .error .failure
    | some shape => .ok (c.add v (derivedIndices shape indices idx))
  | _ => .error .failure

/-- DerivativesMaterialization.cpp:438-457, for one `DerOp` of an algorithm. For a scalar,
`shapeToIndexSet` (302-312) builds a range without dimensions
(lib/Modeling/MultidimensionalRange.cpp:5-8). -/
def collectInAlgorithm (m : Model K) (c : Collected) (a : Ex K) : Except Err Collected :=
  match a with
  | .get v _ =>
    match getShape m v with
    | none => .error .failure
    | some [] => .error .assertion
    | some shape => .ok (c.add v (points shape))
  | _ => .error .failure

/-- All the `DerOp`s of an equation (DerivativesMaterialization.cpp:328-346, 349-417). -/
def collectEquation (m : Model K) (c : Collected) (e : Equation K) : Except Err Collected :=
  (e.sides.flatMap collectDerOps).foldlM (collectInEquation m e.indices) c

/-- All the `DerOp`s of an algorithm (DerivativesMaterialization.cpp:428-460). -/
def collectAlgorithm (m : Model K) (c : Collected) (l : List (Ex K)) : Except Err Collected :=
  (l.flatMap walkDerOps).foldlM (collectInAlgorithm m) c

/-- DerivativesMaterialization.cpp:212-230. -/
def collect (m : Model K) : Except Err Collected := do
  let c ← m.equations.foldlM (collectEquation m) ⟨[], []⟩
  m.algorithms.foldlM (collectAlgorithm m) c

/-- DerivativesMaterialization.cpp:485-508, for one variable; `fresh` is `SymbolTable::insert`, which
makes the name unique. -/
def createVariable (fresh : List String → String → String) (m : Model K) (v : String) :
    Except Err (Model K) :=
  if (getDerivative m.derivatives v).isSome then .ok m
  else match getShape m v with
    | none => .error .failure
    | some shape =>
      let name := fresh (m.vars.map (·.1)) ("der_" ++ v)
      .ok { m with
        vars := m.vars ++ [(name, shape)]
        derivatives := m.derivatives ++ [(v, name)] }

/-- DerivativesMaterialization.cpp:147-192, `removeDerOps`, with `getAccess` (79-119). The
extraction without indices of lines 181-186 needs a view of rank 0. -/
def removeDer (m : Model K) : Ex K → Except Err (Ex K)
  | .const k => .ok (.const k)
  | .time => .ok .time
  | .get v idx => .ok (.get v idx)
  | .un f a => do
    let a' ← removeDer m a
    .ok (.un f a')
  | .bin f a b => do
    let a' ← removeDer m a
    let b' ← removeDer m b
    .ok (.bin f a' b')
  | .red n z f a => do
    let a' ← removeDer m a
    .ok (.red n z f a')
  | .der a => do
    let a' ← removeDer m a
    match a' with
    | .get v idx =>
      match getDerivative m.derivatives v with
      | none => .error .failure
      | some d =>
        if (getShape m d).map List.length = some idx.length then .ok (.get d idx)
        else .error .invalid
    | _ => .error .failure

/-- DerivativesMaterialization.cpp:238-250, for an equation. -/
def removeEquation (m : Model K) (e : Equation K) : Except Err (Equation K) := do
  let sides ← e.sides.mapM (removeDer m)
  .ok { e with sides := sides }

/-- DerivativesMaterialization.cpp:196-262, `processModelOp`. -/
def materialize (fresh : List String → String → String) (m : Model K) : Except Err (Model K) := do
  let c ← collect m
  let m₁ ← c.names.foldlM (createVariable fresh)
    { m with derived := m.derived ++ c.derived }
  let equations ← m₁.equations.mapM (removeEquation m₁)
  let algorithms ← m₁.algorithms.mapM fun l => l.mapM (removeDer m₁)
  .ok { m₁ with equations := equations, algorithms := algorithms }

/-! ## Initialization -/

/-- DerivativesInitialization.cpp:173-215: the start values, all of them zero, and the equations
`der = 0` with their indices. -/
structure Initialized where
  starts : List String
  zeros : List (String × List Point)

/-- DerivativesInitialization.cpp:173-215, for one derived variable. -/
def initializeOne (m : Model K) (i : Initialized) (e : String × String) : Except Err Initialized :=
  match getShape m e.1 with
  | none => .error .failure
  | some shape =>
    let rest := (points shape).filter fun q => (e.1, q) ∉ m.derived
    .ok ⟨i.starts ++ [e.2],
      if shape.isEmpty || rest.isEmpty then i.zeros else i.zeros ++ [(e.2, rest)]⟩

/-- DerivativesInitialization.cpp:166-219, `processModelOp`. -/
def initDerivatives (m : Model K) : Except Err Initialized :=
  m.derivatives.foldlM (initializeOne m) ⟨[], []⟩

end Marco.DerMat
