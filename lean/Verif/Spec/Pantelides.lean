import Verif.Model.Pantelides
import Mathlib.Logic.Relation

/-! # Consistency of recorded derivatives -/

namespace Marco.Spec
open Marco Marco.Pantelides

/-- `d` is recorded as the derivative of the vertex `a` at index `i`. -/
def RecordedAt (m : DerMap) (a : Nat) (i : Point) (d : Nat) : Prop := ∃ I, (a, d, I) ∈ m ∧ i ∈ I

/-- Every index of a vertex has at most one derivative. -/
def OneDerivative (m : DerMap) : Prop :=
  ∀ a i d d', RecordedAt m a i d → RecordedAt m a i d' → d = d'

/-- Nothing is a derivative of itself, of whatever order. -/
def NoCycle {α : Type} (R : α → α → Prop) : Prop := ∀ x, ¬ Relation.TransGen R x x

/-- The relation between vertices and derivatives. -/
def HasDer (m : DerMap) (a d : Nat) : Prop := ∃ i, RecordedAt m a i d

/-- The state before the first request: the vertices have different addresses and variables, all the
variables exist, nothing is recorded, and the derivatives map of the model has no cycle. -/
structure InitVars (s : VState) : Prop where
  addrs : (s.verts.map VVertex.addr).Nodup
  ids : (s.verts.map VVertex.id).Nodup
  below : ∀ x ∈ s.verts, x.id < s.next
  empty : s.der = []
  names : ∀ v d, s.names v = some d → v < s.next ∧ d < s.next
  acyclic : NoCycle fun v d => s.names v = some d

/-- The requests for known derivatives are those of the derivatives map of the model
(lib/Dialect/BaseModelica/Transforms/Pantelides.cpp:176-200). -/
def KnownOk (s : VState) (rs : List Req) : Prop :=
  ∀ v d I, Req.known v d I ∈ rs → s.names v = some d

/-- The state before the first request about equations. -/
structure InitEqs (s : EState) : Prop where
  addrs : (s.verts.map Prod.fst).Nodup
  ids : (s.verts.map Prod.snd).Nodup
  below : ∀ x ∈ s.verts, x.2 < s.next
  empty : s.der = []
  names : ∀ e, s.names e = none

/-- The addresses that the allocator may return in a history. -/
def addresses : List Req → List Nat
  | [] => []
  | .known .. :: rs => addresses rs
  | .diff _ _ addr :: rs => addr :: addresses rs

end Marco.Spec
