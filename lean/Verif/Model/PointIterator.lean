import Verif.Model.IndexSet

/-!
# Model of the iterators of the index sets

The iterator over the objects of a tree (RTree.h:413-493), which is also the iterator over the ranges
of an index set (lib/Modeling/IndexSet.cpp:1093-1130), and the iterator over the points
(lib/Modeling/IndexSet.cpp:1137-1233). `none` is undefined behaviour.
-/

namespace Marco
namespace IndexSet
open RTree

/-- RTree.h:414-417, the state of `ObjectIterator`: `nodes` (the last element first) and
`objectIndex`. The member `node` is always the last of `nodes`, or null if there is none. -/
structure ObjIter where
  stack : List Node
  idx : Nat

/-- RTree.h:430-437 and 473-480: replace the last node by its children until it is a leaf. One fuel
unit per node. -/
def settle : Nat → List Node → List Node
  | 0, st => st
  | _, [] => []
  | fuel + 1, n :: st => if n.isLeaf then n :: st else settle fuel (n.ch ++ st)

/-- RTree.h:426-441, the constructor; lib/Modeling/IndexSet.cpp:412-418, `rangesBegin`. -/
def objBegin : Option Node → ObjIter
  | none => ⟨[], 0⟩
  | some n => ⟨settle n.weight [n], 0⟩

/-- RTree.h:443-445: comparison with the end iterator. -/
def ObjIter.atEnd (it : ObjIter) : Bool := it.stack.isEmpty && it.idx == 0

/-- RTree.h:467-471, `operator*`. -/
def ObjIter.deref (it : ObjIter) : Option Box := it.stack.head?.bind fun n => n.obs[it.idx]?

/-- RTree.h:451-460, `operator++`, with `fetchNextLeaf` (473-492). -/
def ObjIter.next (it : ObjIter) : Option ObjIter :=
  match it.stack with
  | [] => none
  | n :: st =>
    if it.idx + 1 = n.obs.length then some ⟨settle (Node.weightL st) st, 0⟩
    else some ⟨n :: st, it.idx + 1⟩

/-- The loop `for (it = objectsBegin(); it != objectsEnd(); ++it) use(*it);` started in the given
state terminates, and the dereferenced values are the given list. -/
inductive EmitsObj : ObjIter → List Box → Prop
  | done {it : ObjIter} : it.atEnd = true → EmitsObj it []
  | step {it it' : ObjIter} {b : Box} {l : List Box} : it.atEnd = false → it.deref = some b →
      it.next = some it' → EmitsObj it' l → EmitsObj it (b :: l)

/-- lib/Modeling/IndexSet.cpp:1138-1147, the state of `PointIterator`: `currentRangeIt`,
`currentPointIt` and `endPointIt` (`endRangeIt` is the end of the set). -/
structure PointIter where
  range : ObjIter
  pt : Option Box.Iter
  en : Option Box.Iter

/-- MultidimensionalRange.cpp:368-370 through `std::optional`: comparison of point iterators. -/
def samePt (a b : Option Box.Iter) : Bool := a.map Box.Iter.cur == b.map Box.Iter.cur

/-- lib/Modeling/IndexSet.cpp:1200-1206, `shouldProceed`. -/
def PointIter.shouldProceed (it : PointIter) : Bool := !it.range.atEnd && samePt it.pt it.en

/-- lib/Modeling/IndexSet.cpp:1208-1226, `fetchNext`. One fuel unit per iteration. -/
def PointIter.fetchNext : Nat → PointIter → Option PointIter
  | 0, it => if it.shouldProceed then none else some it
  | fuel + 1, it =>
    if it.shouldProceed then
      it.range.next.bind fun r =>
        if r.atEnd then fetchNext fuel ⟨r, none, none⟩
        else r.deref.bind fun b => fetchNext fuel ⟨r, some b.iterBegin, some b.iterEnd⟩
    else some it

/-- lib/Modeling/IndexSet.cpp:1149-1168, `begin`, with the constructor (1138-1147). -/
def pointBegin (fuel : Nat) (s : IndexSet) : Option PointIter :=
  if (objBegin s.root).atEnd then PointIter.fetchNext fuel ⟨objBegin s.root, none, none⟩
  else (objBegin s.root).deref.bind fun b =>
    PointIter.fetchNext fuel ⟨objBegin s.root, some b.iterBegin, some b.iterEnd⟩

/-- lib/Modeling/IndexSet.cpp:1170-1187, comparison with `end` (1170-1175). -/
def PointIter.atEnd (it : PointIter) : Bool := it.range.atEnd && samePt it.pt none

/-- lib/Modeling/IndexSet.cpp:1196-1198, `operator*`. -/
def PointIter.deref (it : PointIter) : Option Point := it.pt.map Box.Iter.idx

/-- lib/Modeling/IndexSet.cpp:1228-1231, `advance`: the point iterator, which belongs to the current
range, is incremented first. -/
def PointIter.next (fuel : Nat) (it : PointIter) : Option PointIter :=
  it.pt.bind fun p => it.range.deref.bind fun b =>
    PointIter.fetchNext fuel { it with pt := some (Box.fetchNext b p) }

/-- The loop `for (it = begin(); it != end(); ++it) use(*it);` started in the given state terminates,
and the dereferenced values are the given list. -/
inductive EmitsPts (fuel : Nat) : PointIter → List Point → Prop
  | done {it : PointIter} : it.atEnd = true → EmitsPts fuel it []
  | step {it it' : PointIter} {p : Point} {l : List Point} : it.atEnd = false → it.deref = some p →
      it.next fuel = some it' → EmitsPts fuel it' l → EmitsPts fuel it (p :: l)

end IndexSet
end Marco
