import Verif.Model.Point
import Mathlib.Data.Finset.Image
import Mathlib.Data.Finset.SDiff

/-!
# Model of the bookkeeping of the index reduction
(`/repo/include/marco/Modeling/Pantelides.h`,
`/repo/lib/Dialect/BaseModelica/Transforms/Pantelides.cpp`)

Simplifications:
* index sets are finite sets of points (C07-C18 are about the structure that represents them);
* the matching, the edges of the graph and the choice of the variables and equations to be
  differentiated (`run`) are left out: a history is any sequence of requests;
* variables and equations are numbers (`VariableBridge::Id`, `EquationBridge::Id`); the map from
  identifiers to vertices, which is updated together with the vertices (Matching.h:1297-1318 and
  1367-1388), is a search among the vertices;
* a vertex descriptor is the address of a vertex: every request carries the address that the
  allocator returns if a vertex has to be created, which is any address that is not in use;
* `none`: the vertex does not exist, or the allocator cannot return the address.
-/

namespace Marco.Pantelides
open Marco

/-- `llvm::DenseMap<VertexDescriptor, VertexSubset>` (Pantelides.h:112, 116): vertex, derivative and
differentiated indices. -/
abbrev DerMap := List (Nat × Nat × Finset Point)

/-- `map.find(v)`. -/
def DerMap.find (m : DerMap) (v : Nat) : Option (Nat × Finset Point) := m.lookup v

/-- Pantelides.h:370-380 and 429-439: the requested indices that are not recorded yet. -/
def DerMap.todo (m : DerMap) (a : Nat) (I : Finset Point) : Finset Point :=
  match m.find a with
  | some (_, J) => I \ J
  | none => I

/-- Pantelides.h:168-181 (variables) and 215-231 (equations): a new entry, or more indices for the
entry that exists. -/
def DerMap.add : DerMap → Nat → Nat → Finset Point → DerMap
  | [], v, d, I => [(v, d, I)]
  | (v', d', J) :: m, v, d, I =>
    if v' = v then (v', d', J ∪ I) :: m else (v', d', J) :: DerMap.add m v d I

/-! ### Variables -/

/-- A vertex: its address, the variable, and its indices. -/
structure VVertex where
  addr : Nat
  id : Nat
  idx : Finset Point

/-- The state: the vertices, `variableDerivatives`, the derivatives map of the model (`names`), the
indices of the variables (`shape`), and the number of the variables that exist. -/
structure VState where
  verts : List VVertex
  der : DerMap
  names : Nat → Option Nat
  shape : Nat → Finset Point
  next : Nat

/-- `getVariableFromDescriptor`. -/
def VState.vertex (s : VState) (a : Nat) : Option VVertex := s.verts.find? fun x => x.addr == a

/-- Matching.h:1612-1622, `getVariableDescriptorFromId`. -/
def VState.find (s : VState) (v : Nat) : Option Nat :=
  (s.verts.find? fun x => x.id == v).map VVertex.addr

/-- Pantelides.h:155-187, `addVariableDerivative(descriptor, descriptor, indices)`, with
`VariableVertex::removeIndices` (Matching.h:267-280) and `removeVariable` (1308-1318). -/
def addVariableDerivative (s : VState) (a d : Nat) (I : Finset Point) : Option VState :=
  (s.vertex a).map fun x =>
    if x.idx \ I = ∅ then { s with verts := s.verts.filter fun y => y.addr != a }
    else { s with
      verts := s.verts.map fun y => if y.addr == a then { y with idx := x.idx \ I } else y
      der := s.der.add a d I }

/-- Pantelides.h:140-153, `addVariableDerivative(id, id, indices)`. -/
def addKnown (s : VState) (v d : Nat) (I : Finset Point) : Option VState :=
  match s.find v, s.find d with
  | some a, some b => addVariableDerivative s a b I
  | _, _ => some s

/-- lib/Dialect/BaseModelica/Transforms/Pantelides.cpp:205-262, `differentiateVariable`: the derivative
in the derivatives map, or a new variable with the same shape. -/
def derivativeOf (s : VState) (v : Nat) : Nat × VState :=
  match s.names v with
  | some d => (d, s)
  | none => (s.next, { s with
      names := fun w => if w = v then some s.next else s.names w
      shape := fun w => if w = s.next then s.shape v else s.shape w
      next := s.next + 1 })

/-- Pantelides.h:390-408: the vertex of the derivative, which is created if it is missing. -/
def vertexFor (s : VState) (d addr : Nat) : Option (Nat × VState) :=
  match s.find d with
  | some b => some (b, s)
  | none =>
    if s.verts.any fun x => x.addr == addr then none
    else some (addr, { s with verts := ⟨addr, d, s.shape d⟩ :: s.verts })

/-- Pantelides.h:362-412, `differentiateVariable`. -/
def differentiateVariable (s : VState) (a : Nat) (I : Finset Point) (addr : Nat) :
    Option VState :=
  (s.vertex a).bind fun x =>
    let todo := s.der.todo a I
    if todo = ∅ then some s
    else
      let (d, s) := derivativeOf s x.id
      (vertexFor s d addr).bind fun (b, s) => addVariableDerivative s a b todo

/-- A request. -/
inductive Req where
  /-- `addVariableDerivative(id, id, indices)` -/
  | known (v d : Nat) (I : Finset Point)
  /-- `differentiateVariable(descriptor, indices)`, and the result of the allocator -/
  | diff (a : Nat) (I : Finset Point) (addr : Nat)

/-- One request. -/
def VState.step (s : VState) : Req → Option VState
  | .known v d I => addKnown s v d I
  | .diff a I addr => differentiateVariable s a I addr

/-- A history of requests. -/
def VState.run (s : VState) : List Req → Option VState
  | [] => some s
  | r :: rs => (s.step r).bind fun s => s.run rs

/-! ### Equations -/

/-- The state: the vertices (address and equation), `equationDerivatives` of the graph, the
derivatives known to the pass (Pantelides.cpp:28), and the number of the equations that exist. -/
structure EState where
  verts : List (Nat × Nat)
  der : DerMap
  names : Nat → Option Nat
  next : Nat

/-- lib/Dialect/BaseModelica/Transforms/Pantelides.cpp:264-334, `differentiateEquation`: the derivative
that exists, or a new equation. -/
def EState.derivativeOf (s : EState) (e : Nat) : Nat × EState :=
  match s.names e with
  | some d => (d, s)
  | none => (s.next, { s with
      names := fun w => if w = e then some s.next else s.names w
      next := s.next + 1 })

/-- Pantelides.h:449-470: the vertex of the derivative, which is created if it is missing. -/
def EState.vertexFor (s : EState) (d addr : Nat) : Option (Nat × EState) :=
  match s.verts.find? fun x => x.2 == d with
  | some x => some (x.1, s)
  | none =>
    if s.verts.any fun x => x.1 == addr then none
    else some (addr, { s with verts := (addr, d) :: s.verts })

/-- Pantelides.h:421-474, `differentiateEquation`, with `addEquationDerivative` (213-232). -/
def EState.differentiate (s : EState) (a : Nat) (I : Finset Point) (addr : Nat) : Option EState :=
  (s.verts.find? fun x => x.1 == a).bind fun x =>
    let todo := s.der.todo a I
    if todo = ∅ then some s
    else
      let (d, s) := s.derivativeOf x.2
      (s.vertexFor d addr).map fun (b, s) => { s with der := s.der.add a b todo }

/-- A history of requests: vertex, indices and the result of the allocator. -/
def EState.run (s : EState) : List (Nat × Finset Point × Nat) → Option EState
  | [] => some s
  | (a, I, addr) :: rs => (s.differentiate a I addr).bind fun s => s.run rs

end Marco.Pantelides
