import Verif.Model.EquationAccesses

/-!
# Model of the accesses given to IDA and KINSOL
(`/repo/lib/Dialect/BaseModelica/Transforms/IDA.cpp`, lines 949-1130,
`/repo/lib/Dialect/BaseModelica/Transforms/SCCSolvingWithKINSOL.cpp`, lines 314-355 and 1361-1408,
`/repo/lib/Dialect/BaseModelica/IR/Dialect.cpp`, lines 528-605)

With `reducedDerivatives` the solvers are told which elements of the variables each scalar equation depends on: an access
function for each access. The entries of the Jacobian matrix that no access function leads to are zero for the solver.
-/

namespace Marco.Sparsity
open Marco Marco.EqAcc

/-- The value computed by the operations that `materializeAffineExpr` creates (Dialect.cpp:546-605); `DivOp` on indices rounds
towards zero. -/
def materialize : AExpr → Point → Option Int
  | .const v, _ => some v
  | .dim d, p => p[d]?
  | .add a b, p => do
    let x ← materialize a p
    let y ← materialize b p
    some (x + y)
  | .mul a b, p => do
    let x ← materialize a p
    let y ← materialize b p
    some (x * y)
  | .floorDiv a b, p => do
    let x ← materialize a p
    let y ← materialize b p
    if y = 0 then none else some (x.tdiv y)

/-- IDA.cpp:1094-1107, SCCSolvingWithKINSOL.cpp:319-332: at least one dimension and one result. -/
def normalize (m : AffineMap) : AffineMap :=
  ⟨max 1 m.dims, if m.results = [] then [.const 0] else m.results⟩

/-- The access function created for a map (IDA.cpp:1088-1130, SCCSolvingWithKINSOL.cpp:314-355): the element accessed from an
index of the equation. `none`: undefined behaviour. -/
def accessFunction (m : AffineMap) (q : Point) : Option Point :=
  if q.length < (normalize m).dims then none else (normalize m).results.mapM fun e => materialize e q

/-- What the instance knows about the variables: whether it handles a variable (`hasVariable`), and the state variable that a
variable is the derivative of (`getDerivedVariable`). -/
structure Solver where
  has : Nat → Bool
  derived : Nat → Option Nat

/-- IDA.cpp:964-978, `getIDAVariable`; the IDA variable of an algebraic or state variable has its number. -/
def Solver.variable (s : Solver) (v : Nat) : Nat :=
  match s.derived v with
  | some x => x
  | none => v

/-- `maps[variable].insert(map)`, a set for each variable; the order in which they are visited is not specified. -/
def insert (maps : List (Nat × AffineMap)) (w : Nat) (m : AffineMap) : List (Nat × AffineMap) :=
  if (w, m) ∈ maps then maps else maps ++ [(w, m)]

/-- IDA.cpp:1022-1030: the map to a point. -/
def constMap (n : Nat) (x : Point) : AffineMap := ⟨n, x.map .const⟩

/-- IDA.cpp:990-1038: the loop over the accesses. The image of the iteration space of a scalar equation is that of the empty
set. -/
def tellIda (s : Solver) (space : IndexSet) : List Access → List (Nat × AffineMap) → Except Err (List (Nat × AffineMap))
  | [], maps => .ok maps
  | a :: as, maps =>
    if s.has a.var then
      if a.fn.isAffine then tellIda s space as (insert maps (s.variable a.var) a.fn.affineMap)
      else match a.fn.mapSet space with
        | some t => tellIda s space as
            (t.points.foldl (fun maps x => insert maps (s.variable a.var) (constMap a.fn.dims x)) maps)
        | none => .error .undefined
    else tellIda s space as maps

/-- IDA.cpp:949-1060, `addVariableAccessesInfoToIDA`: the access functions added, each for an IDA variable. -/
def ida (S : Simplifier) (s : Solver) (t : Template) (space : IndexSet) : Except Err (List (Nat × AffineMap)) := do
  let as ← getAccesses S t
  tellIda s space as []

/-- SCCSolvingWithKINSOL.cpp:1376-1387: the loop over the accesses; `getAffineMap` asserts that the access is affine. -/
def tellKinsol (s : Solver) : List Access → List (Nat × AffineMap) → Except Err (List (Nat × AffineMap))
  | [], maps => .ok maps
  | a :: as, maps =>
    if s.has a.var then
      if a.fn.isAffine then tellKinsol s as (insert maps a.var a.fn.affineMap)
      else .error .undefined
    else tellKinsol s as maps

/-- SCCSolvingWithKINSOL.cpp:1361-1408, `addVariableAccessesInfoToKINSOL`. -/
def kinsol (S : Simplifier) (s : Solver) (t : Template) : Except Err (List (Nat × AffineMap)) := do
  let as ← getAccesses S t
  tellKinsol s as []

/-- The indices of the equation for the solver: IDA.cpp:778-782, SCCSolvingWithKINSOL.cpp:1169-1173; a scalar equation has
the index 0. -/
def indices (space : IndexSet) : List Point := if space.isEmpty then [[0]] else space.points

end Marco.Sparsity
