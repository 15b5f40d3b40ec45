import Verif.Model.RTreeUpdate
import Verif.Spec.IndexSet

/-! # Specification vocabulary for the updates of a tree -/

namespace Marco.Spec
open Marco RTree

/-- A tree of rank `k` with the given limits on the number of entries: a node has either children or
objects, boundaries are the minimum bounding boxes of the objects below, every node but the root has
between `mn` and `mx` entries (the root at least one and at most `mx`), the leaves are all at the
same depth, and different nodes have different addresses. -/
structure TreeInv (mn mx k : Nat) (t : Node) : Prop where
  excl : AllNodes (fun m => m.ch = [] ∨ m.obs = []) t
  objs : ∀ o ∈ t.objects, Ranked k o
  bds : AllNodes (fun m => Ranked k m.bd) t
  mbr : AllNodes (fun m => IsMBR m.bd m.objects) t
  root : 1 ≤ t.fanOut ∧ t.fanOut ≤ mx
  fan : ∀ c ∈ t.ch, AllNodes (fun m => mn ≤ m.fanOut ∧ m.fanOut ≤ mx) c
  depth : ∃ d, Uniform d t
  addrs : t.ids.Nodup

/-- What the choices made by the heuristics have to satisfy: the destination is one of the children,
and the entries of a node with too many of them are distributed among two groups, neither of which
has fewer than the minimum number of entries. The limits are those asserted at RTree.h:525-527. -/
structure AnyChoice (C : Cfg) : Prop where
  mn : 1 ≤ C.mn
  mx : 2 * C.mn ≤ C.mx
  choose : ∀ l b, l ≠ [] → C.choose l b < l.length
  obs : ∀ l, C.mx < l.length → ∃ a b, C.splitObs l = some (a, b) ∧ (a ++ b).Perm l ∧
    C.mn ≤ a.length ∧ C.mn ≤ b.length
  ch : ∀ l, C.mx < l.length → ∃ a b, C.splitCh l = some (a, b) ∧ (a ++ b).Perm l ∧
    C.mn ≤ a.length ∧ C.mn ≤ b.length

end Marco.Spec

namespace Marco.Spec
open Marco RTree

/-- An index set of rank `k` stored in a well-formed tree: minimum bounding boxes, leaves at the same
depth, distinct addresses in use. (The number of entries of the nodes is not limited: see C17.) -/
structure StoredOk (k : Nat) (s : IndexSet) : Prop where
  tight : ∀ t, s.root = some t → Tight k t
  depth : ∀ t, s.root = some t → ∃ d, Uniform d t
  addrs : ∀ t, s.root = some t → t.ids.Nodup ∧ ∀ i ∈ t.ids, i < s.next
  init : s.root.isSome → s.init = true
  rank : s.init = true → s.rank = k

end Marco.Spec

namespace Marco.Spec
open Marco RTree IndexSet

/-- One operation of a history of insertions: `operator+=` of a point, of a box, of a set. -/
inductive InsertOp where
  | point (p : Point)
  | box (b : Box)
  | set (t : IndexSet)

/-- The operand has rank `k`, and is well formed. -/
def InsertOp.Valid (k : Nat) : InsertOp → Prop
  | .point p => p.length = k ∧ 0 < k
  | .box b => Ranked k b
  | .set t => SetOk k t

/-- The operation inserts the point. -/
def InsertOp.Has (p : Point) : InsertOp → Prop
  | .point q => p = q
  | .box b => InB p b
  | .set t => Spec.Has t p

/-- Execute an operation. -/
def InsertOp.run (C : Cfg) (fuel : Nat) (s : IndexSet) : InsertOp → Res IndexSet
  | .point p => insertPoint C fuel s p
  | .box b => insertBox C fuel s b
  | .set t => insertBoxes C fuel s t.ranges

/-- Execute a history of insertions. -/
def runInserts (C : Cfg) (fuel : Nat) : IndexSet → List InsertOp → Res IndexSet
  | s, [] => .ok s
  | s, o :: os => do
    let s ← o.run C fuel s
    runInserts C fuel s os

/-- Two boxes without common points whose union is not a box. -/
def Apart (a b : Box) : Prop := Disj a b ∧ ¬ ∃ u : Box, ∀ p, InB p u ↔ (InB p a ∨ InB p b)

end Marco.Spec

namespace Marco.Spec
open Marco RTree IndexSet

/-- One operation of a history of updates: an insertion, or `operator-=` of a box or of a set. -/
inductive UpdateOp where
  | insert (o : InsertOp)
  | removeBox (b : Box)
  | removeSet (t : IndexSet)

/-- The operand has rank `k`, and is well formed. -/
def UpdateOp.Valid (k : Nat) : UpdateOp → Prop
  | .insert o => o.Valid k
  | .removeBox b => Ranked k b
  | .removeSet t => SetOk k t

/-- Execute an operation. -/
def UpdateOp.run (C : Cfg) (fuel : Nat) (s : IndexSet) : UpdateOp → Res IndexSet
  | .insert o => o.run C fuel s
  | .removeBox b => IndexSet.removeBox C fuel s b
  | .removeSet t => IndexSet.removeSet C fuel s t

/-- Execute a history of updates. -/
def runUpdates (C : Cfg) (fuel : Nat) : IndexSet → List UpdateOp → Res IndexSet
  | s, [] => .ok s
  | s, o :: os => do
    let s ← o.run C fuel s
    runUpdates C fuel s os

/-- Every leaf whose boundary overlaps the box has at least `mn` objects with a point outside of the
box. -/
def LeavesStay (mn : Nat) (q : Box) (s : IndexSet) : Prop :=
  ∀ t, s.root = some t → AllNodes (fun m => m.ch = [] → (∃ p, InB p m.bd ∧ InB p q) →
    ∃ l : List Box, l.Sublist m.obs ∧ mn ≤ l.length ∧ ∀ o ∈ l, ∃ p, InB p o ∧ ¬ InB p q) t

/-- The boundary of at most one leaf overlaps the box. -/
def OneLeaf (q : Box) (s : IndexSet) : Prop :=
  ∀ t, s.root = some t → ∃ i, AllNodes (fun m => m.ch = [] → (∃ p, InB p m.bd ∧ InB p q) → m.id = i) t

/-- The set is stored in one leaf, which is the root of the tree; or it is empty. -/
def RootLeaf (s : IndexSet) : Prop := ∀ t, s.root = some t → t.ch = []

end Marco.Spec
