import Verif.Model.AccessFunction

/-!
# Model of the accesses of an equation
(`/repo/include/marco/Dialect/BaseModelica/IR/OpInterfaces.td`, lines 141-193,
`/repo/lib/Dialect/BaseModelica/Transforms/EquationExpressionOpInterfaceImpl.cpp`,
`/repo/lib/Dialect/BaseModelica/IR/Dialect.cpp`, lines 400-526,
`/repo/lib/Dialect/BaseModelica/IR/Ops.cpp`, lines 8157-8194, 8242-8318)

Values are represented by the expressions they are the results of; block arguments (the induction variables) have numbers.
The shapes of the types of the variables are static. Operations without the expression interface are not modelled (the code
fails on them).
-/

namespace Marco.EqAcc
open Marco

/-- The arithmetic operations known to `getDimensionAccess`. -/
inductive BinOp where
  | add
  | sub
  | mul
  | div
deriving DecidableEq, Repr

/-- Expressions. `arg`: a block argument; `cst`, `rng`, `rrng`: `ConstantOp` with a number, an `IntegerRangeAttr`, a
`RealRangeAttr` (lower bound, upper bound and step; the bounds of the latter are given after the conversion to integers);
`neg`, `bin`: `NegateOp`, `AddOp`, `SubOp`, `MulOp`, `DivOp`; `op`: every operation with the default implementation of
`getEquationAccesses`; `get`: `VariableGetOp` with the shape of its type (none for scalars); `gget`: `GlobalVariableGetOp`;
`sub`: `TensorViewOp`, `TensorExtractOp`, `SubscriptionOp`, `LoadOp`; `cast`: `ArrayCastOp`; `red`: `ReductionOp` with its
inductions, its iterables and the values yielded. -/
inductive Exp where
  | arg (id : Nat)
  | cst (v : Int)
  | rng (lo hi step : Int)
  | rrng (lo hi step : Int)
  | neg (a : Exp)
  | bin (o : BinOp) (a b : Exp)
  | op (args : List Exp)
  | get (v : Nat) (shape : List Nat)
  | gget
  | sub (src : Exp) (idx : List Exp)
  | cast (src : Exp)
  | red (inds : List Nat) (its : List Exp) (body : List Exp)

/-- What goes wrong: `mlir::failure()`, or undefined behaviour (a failed assertion). -/
inductive Err where
  | failure
  | undefined
deriving DecidableEq, Repr

/-- `AdditionalInductions` (OpInterfaces.h:33-70, lib/.../IR/OpInterfaces.cpp:8-78): the space of each induction and its
dimension (`none`: minus one). No caller adds dependencies among the dimensions (`addDimensionDependency`). The entries of
a reduction stay in the map of the code when the reduction has been left; its inductions are not used there. -/
abbrev Added := List (Nat × IndexSet × Option Nat)

/-- RTree.h:575: `rank` is zero until a range has been inserted. -/
def rank (s : IndexSet) : Nat :=
  match s.ranges with
  | [] => 0
  | b :: _ => b.length

/-- `indices.rank() - 1`. -/
def lastDim (s : IndexSet) : Option Nat := if rank s = 0 then none else some (rank s - 1)

/-- EquationExpressionOpInterfaceImpl.cpp:280-335: one iteration of the loop over the iterables. The second integer range is
not appended: an empty set is (line 304). The end of a real range is not included (line 322). -/
def addIterable (st : IndexSet × List (Nat × Option Nat)) (id : Nat) (it : Exp) :
    Except Err (IndexSet × List (Nat × Option Nat)) :=
  match it with
  | .rng lo hi step =>
    if step = 1 ∧ lo < hi + 1 then
      let indices := if st.1.isEmpty then IndexSet.ofRanges [[⟨lo, hi + 1⟩]] else st.1.append IndexSet.empty
      .ok (indices, st.2 ++ [(id, lastDim indices)])
    else .error .undefined
  | .rrng lo hi step =>
    if step = 1 ∧ lo < hi then
      let indices := if st.1.isEmpty then IndexSet.ofRanges [[⟨lo, hi⟩]]
        else st.1.append (IndexSet.ofRanges [[⟨lo, hi⟩]])
      .ok (indices, st.2 ++ [(id, lastDim indices)])
    else .error .undefined
  | _ => .error .failure

/-- EquationExpressionOpInterfaceImpl.cpp:280-336: the loop, over the pairs (`zip`). -/
def addIterables : List Nat → List Exp → IndexSet × List (Nat × Option Nat) →
    Except Err (IndexSet × List (Nat × Option Nat))
  | id :: ids, it :: its, st => do
    let st ← addIterable st id it
    addIterables ids its st
  | _, _, st => .ok st

/-- EquationExpressionOpInterfaceImpl.cpp:272-348, `mapAdditionalInductions`. -/
def mapAdditional (inds : List Nat) (its : List Exp) (ad : Added) : Except Err Added := do
  let st ← addIterables inds its (IndexSet.empty, [])
  .ok ((st.2.map fun e => (e.1, st.1, e.2)) ++ ad)

/-- Dialect.cpp:409-433: the access of a constant range; its end is not included. -/
def rangeAccess (lo hi step : Int) : Except Err DimAccess :=
  if step = 1 ∧ lo < hi then .ok (.range ⟨lo, hi⟩) else .error .undefined

/-- Dialect.cpp:400-526, `getDimensionAccess`. `inds`: the explicit inductions, each at its position. The dependencies are
searched for by dimension and must be found (OpInterfaces.cpp:60-70). A new space is allocated for each access; without
dependencies its address is irrelevant. -/
def dimAccess (inds : List Nat) (ad : Added) : Exp → Except Err DimAccess
  | .cst v => .ok (.const v)
  | .rng lo hi step => rangeAccess lo hi step
  | .rrng lo hi step => rangeAccess lo hi step
  | .neg a => do
    let x ← dimAccess inds ad a
    .ok (.mul (.const (-1)) x)
  | .bin o a b => do
    let x ← dimAccess inds ad a
    let y ← dimAccess inds ad b
    match o with
    | .add => .ok (.add x y)
    | .sub => .ok (.sub x y)
    | .mul => .ok (.mul x y)
    | .div => .ok (.div x y)
  | .arg id =>
    if id ∈ inds then .ok (.dim (inds.idxOf id))
    else match ad.lookup id with
      | some (s, some d) => if d < rank s then .ok (.indices id s d []) else .error .undefined
      | some (_, none) => .error .undefined
      | none => .error .failure
  | _ => .error .failure

/-- The accesses of the subscripts, last one first (EquationExpressionOpInterfaceImpl.cpp:649-660, 706-717, 902-913,
959-970). -/
def dimAccesses (inds : List Nat) (ad : Added) (idx : List Exp) : Except Err (List DimAccess) :=
  idx.reverse.mapM (dimAccess inds ad)

/-- `VariableAccess` (include/marco/Dialect/BaseModelica/IR/VariableAccess.h): path, variable, access function. -/
structure Access where
  path : List Nat
  var : Nat
  fn : AccessFn

/-- EquationExpressionOpInterfaceImpl.cpp:1015-1057: the access of a `VariableGetOp`, given the accesses of the subscripts
found on the way, last one first. -/
def getAccess (S : Simplifier) (inds : List Nat) (v : Nat) (shape : List Nat) (ds : List DimAccess) (path : List Nat) :
    Except Err (List Access) :=
  let rest := shape.drop ds.length
  if rest.all (0 < ·) then
    .ok [⟨path, v, AccessFn.build S inds.length
      (ds.reverse ++ rest.map fun d => .range ⟨0, (d : Int)⟩)⟩]
  else .error .undefined

mutual
/-- `getEquationAccesses`: OpInterfaces.td:147-193 for the operations with the default implementation and for reductions,
EquationExpressionOpInterfaceImpl.cpp:638-672, 695-729, 891-925, 948-982 for the subscriptions, 812-841 for casts,
1015-1057 and 1090-1099 for variables. A value without defining operation has no accesses, except as the source of a
subscription, where the code fails. -/
def accesses (S : Simplifier) (inds : List Nat) : Exp → Added → List DimAccess → List Nat → Except Err (List Access)
  | .arg _, _, _, _ => .ok []
  | .cst _, _, _, _ => .ok []
  | .rng .., _, _, _ => .ok []
  | .rrng .., _, _, _ => .ok []
  | .gget, _, _, _ => .ok []
  | .neg a, ad, _, path => accesses S inds a ad [] (path ++ [0])
  | .bin _ a b, ad, _, path => do
    let l ← accesses S inds a ad [] (path ++ [0])
    let r ← accesses S inds b ad [] (path ++ [1])
    .ok (l ++ r)
  | .op args, ad, _, path => accessesL S inds args ad path 0
  | .get v shape, _, ds, path => getAccess S inds v shape ds path
  | .sub src idx, ad, ds, path => do
    let es ← dimAccesses inds ad idx
    match src with
    | .arg _ => .error .failure
    | src => accesses S inds src ad (ds ++ es) path
  | .cast src, ad, ds, path => accesses S inds src ad ds (path ++ [0])
  | .red is its body, ad, _, path => do
    let ad ← mapAdditional is its ad
    accessesL S inds body ad path 0
/-- The loop over the children (OpInterfaces.td:166-190). -/
def accessesL (S : Simplifier) (inds : List Nat) : List Exp → Added → List Nat → Nat → Except Err (List Access)
  | [], _, _, _ => .ok []
  | e :: es, ad, path, i => do
    let l ← accesses S inds e ad [] (path ++ [i])
    let r ← accessesL S inds es ad path (i + 1)
    .ok (l ++ r)
end

/-- `EquationTemplateOp` with one value on each side. -/
structure Template where
  inds : List Nat
  lhs : Exp
  rhs : Exp

/-- Ops.cpp:8296-8318, `searchAccesses`: no additional inductions and no subscripts to begin with. -/
def searchAccesses (S : Simplifier) (t : Template) (e : Exp) (path : List Nat) : Except Err (List Access) :=
  accesses S t.inds e [] [] path

/-- Ops.cpp:8170-8194, `getAccesses`: left-hand side, then right-hand side; the side is told by the first number of the
path (0, 1) here. -/
def getAccesses (S : Simplifier) (t : Template) : Except Err (List Access) := do
  let l ← searchAccesses S t t.lhs [0, 0]
  let r ← searchAccesses S t t.rhs [1, 0]
  .ok (l ++ r)

/-- `getExpressionElement`: the operands (OpInterfaces.td:127-133), for reductions the values yielded
(EquationExpressionOpInterfaceImpl.cpp:254-261). -/
def element : Exp → Nat → Option Exp
  | .neg a, i => [a][i]?
  | .bin _ a b, i => [a, b][i]?
  | .op args, i => args[i]?
  | .sub src idx, i => (src :: idx)[i]?
  | .cast src, i => [src][i]?
  | .red _ _ body, i => body[i]?
  | _, _ => none

/-- The loop of `getValueAtPath` (Ops.cpp:8254-8259). `none`: there is no such operand. -/
def valueAt : Exp → List Nat → Option Exp
  | e, [] => some e
  | e, i :: path => do
    let e' ← element e i
    valueAt e' path

/-- Ops.cpp:8242-8262, `getValueAtPath`, for equations with one value on each side. -/
def Template.valueAtPath (t : Template) : List Nat → Option Exp
  | 0 :: 0 :: path => valueAt t.lhs path
  | 1 :: 0 :: path => valueAt t.rhs path
  | _ => none

/-- Ops.cpp:8263-8294, `getAccessAtPath`: the search starts at the value, without the inductions of the reductions that it
is part of. `none`: no access or several ones, or the search fails. -/
def getAccessAtPath (S : Simplifier) (t : Template) (path : List Nat) : Option Access := do
  let e ← t.valueAtPath path
  match searchAccesses S t e path with
  | .ok [a] => some a
  | _ => none

end Marco.EqAcc
