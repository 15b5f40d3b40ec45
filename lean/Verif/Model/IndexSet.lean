import Verif.Model.RTree
import Mathlib.Data.List.Sort

/-!
# Model of `marco::modeling::IndexSet` (`/repo/lib/Modeling/IndexSet.cpp`)

Construction, queries and the operations returning new sets. The in-place updates (`+=`, `-=`)
are in `Verif.Model.RTreeUpdate`.

`llvm::sort` is modelled by insertion sort: the order is total and consistent with equality
(C05), so all sorting algorithms give the same result.
-/

namespace Marco

/-- RTree.h:502-516, the members of an index set: the tree (`root`), `initialized` and
`allowedRank`; `next` is the next unused address. -/
structure IndexSet where
  root : Option Node
  init : Bool
  rank : Nat
  next : Nat

namespace IndexSet

/-- RTree.h:504, `minElements`. -/
def minElements : Nat := 4
/-- RTree.h:507, `maxElements`. -/
def maxElements : Nat := 16

/-- RTree.h:519, the default constructor. -/
def empty : IndexSet := ⟨none, false, 0, 0⟩

/-- RTree.h:561, `empty()`. -/
def isEmpty (s : IndexSet) : Bool := s.root.isNone

/-- RTree.h:579-584, `emptyCopy`. -/
def emptyCopy (s : IndexSet) : IndexSet := ⟨none, s.init, s.rank, 0⟩

/-- lib/Modeling/IndexSet.cpp:412-418, the ranges between `rangesBegin()` and `rangesEnd()`. -/
def ranges (s : IndexSet) : List Box :=
  match s.root with
  | none => []
  | some n => n.objects

/-- Sorting by `operator<` on boxes (`llvm::sort`). -/
def sortBoxes (l : List Box) : List Box :=
  l.insertionSort (fun a b => Box.lt b a = false)

/-! ### Construction from a list of ranges -/

/-- lib/Modeling/IndexSet.cpp:160-166: number of trailing elements that overlap `cur` in some
dimension, scanning backwards and stopping at the first that does not. -/
def trailing (acc : List Box) (cur : Box) : Nat :=
  (acc.reverse.takeWhile (fun o => cur.anyDimensionOverlaps o)).length

/-- lib/Modeling/IndexSet.cpp:174-184: subtract `other` from the current differences. -/
def diffStep (diffs : List Box) (other : Box) : List Box :=
  diffs.flatMap fun d => if d.overlaps other then d.subtract other else [d]

/-- lib/Modeling/IndexSet.cpp:154-192: one iteration of the loop over the sorted ranges. -/
def addSorted (acc : List Box) (cur : Box) : List Box :=
  if acc.isEmpty then [cur]
  else
    let idx := acc.length - trailing acc cur
    let diffs := (acc.drop idx).foldl diffStep [cur]
    acc.take idx ++ sortBoxes (acc.drop idx ++ diffs)

/-- lib/Modeling/IndexSet.cpp:145-192: the contents of `nonOverlappingRanges` after the loop. -/
def nonOverlapping (rs : List Box) : List Box := (sortBoxes rs).foldl addSorted []

/-- lib/Modeling/IndexSet.cpp:87-89 and 145-232, construction from ranges. (`setFromObjects`
never fails on a non-empty list, see `RTree.setFromObjects_spec`.) -/
def ofRanges (rs : List Box) : IndexSet :=
  match nonOverlapping rs with
  | [] => empty
  | b :: bs =>
    match RTree.setFromObjects minElements maxElements (b :: bs) with
    | none => empty
    | some (next, n) => ⟨some n, true, b.length, next⟩

/-- lib/Modeling/IndexSet.cpp:75-85, construction from points (each point is the unit box of
MultidimensionalRange.cpp:10-14). -/
def ofPoints (ps : List Point) : IndexSet := ofRanges (ps.map Box.ofPoint)

/-! ### Queries -/

/-- lib/Modeling/IndexSet.cpp:393-402, `size`. -/
def size (s : IndexSet) : Nat := s.ranges.foldl (fun acc r => acc + r.size) 0

/-- lib/Modeling/IndexSet.cpp:576-604, `overlaps(box)`. -/
def overlapsBox (s : IndexSet) (q : Box) : Bool :=
  match s.root with
  | none => false
  | some n => !(RTree.visit q n).isEmpty

/-- lib/Modeling/IndexSet.cpp:606-653, `overlaps(set)`. -/
def overlapsSet (s t : IndexSet) : Bool :=
  match s.root, t.root with
  | some l, some r => !(RTree.visitPairs l r).isEmpty
  | _, _ => false

/-- lib/Modeling/IndexSet.cpp:433-464, the queue of `contains(box)`. Each iteration that changes
something takes the front range and the first visited object overlapping it
(RTree.visit is the sequence of the objects in visit order). Returns the final queue. The fuel
bounds the number of iterations; it is the number of points still to be covered, which
decreases. -/
def containsLoop (n : Node) : Nat → List Box → List Box
  | 0, qs => qs
  | _, [] => []
  | fuel + 1, q :: qs =>
    match RTree.visit q n with
    | [] => q :: qs
    | o :: _ => containsLoop n fuel (qs ++ q.subtract o)

/-- Number of points of a list of boxes (bound used as fuel). -/
def totalSize (l : List Box) : Nat := (l.map Box.size).sum

/-- lib/Modeling/IndexSet.cpp:424-467, `contains(box)`. -/
def containsBox (s : IndexSet) (q : Box) : Bool :=
  match s.root with
  | none => false
  | some n => (containsLoop n (totalSize [q] + 1) [q]).isEmpty

/-- lib/Modeling/IndexSet.cpp:420-422, `contains(point)`. -/
def containsPoint (s : IndexSet) (p : Point) : Bool := s.containsBox (Box.ofPoint p)

/-- lib/Modeling/IndexSet.cpp:518-541: check the objects of a leaf of `other` against leaves of
this set. -/
def leafCovered (objs : List Box) (lhs : List Node) : Bool :=
  objs.all fun o =>
    ((lhs.flatMap Node.obs).foldl (fun rem l => rem.flatMap fun r => r.subtract l) [o]).isEmpty

/-- lib/Modeling/IndexSet.cpp:500-516: replace the inner nodes by those of their children that
overlap the boundary `b`. -/
def descend (b : Box) (lhs : List Node) : List Node :=
  lhs.flatMap fun l =>
    if l.isLeaf then [l] else l.ch.filter fun c => c.bd.overlaps b

/-- lib/Modeling/IndexSet.cpp:499-542: the handling of a leaf of `other`; one fuel unit per level
of this tree. -/
def leafLoop (rhs : Node) : Nat → List Node → Bool
  | 0, lhs => leafCovered rhs.obs lhs
  | fuel + 1, lhs =>
    if lhs.any fun l => !l.isLeaf then leafLoop rhs fuel (descend rhs.bd lhs)
    else leafCovered rhs.obs lhs

/-- lib/Modeling/IndexSet.cpp:548-562: the nodes of this set kept for a child of `other` with
boundary `b`; note that the node `l` itself is kept (once per overlapping child), not the
child. -/
def keepOverlapping (b : Box) (lhs : List Node) : List Node :=
  lhs.flatMap fun l =>
    if l.isLeaf then (if l.bd.overlaps b then [l] else [])
    else (l.ch.filter fun c => c.bd.overlaps b).map fun _ => l

mutual
/-- lib/Modeling/IndexSet.cpp:493-571: the stack loop of `contains(set)`. The loop answers
`false` as soon as one pair fails and `true` when all pairs have been processed, so the order in
which the pairs are taken from the stack is irrelevant and the model is a recursion. -/
def pairLoop (depth : Nat) : Node → List Node → Bool
  | .mk i b ch obs, lhs =>
    match ch with
    | [] => leafLoop (.mk i b [] obs) depth lhs
    | c :: cs => pairLoopL depth (c :: cs) lhs
/-- lib/Modeling/IndexSet.cpp:544-569: the children of an inner node of `other`. -/
def pairLoopL (depth : Nat) : List Node → List Node → Bool
  | [], _ => true
  | c :: cs, lhs =>
    let kept := keepOverlapping c.bd lhs
    !kept.isEmpty && pairLoop depth c kept && pairLoopL depth cs lhs
end

/-- lib/Modeling/IndexSet.cpp:469-574, `contains(set)`. -/
def containsSet (s t : IndexSet) : Bool :=
  match t.root with
  | none => true
  | some r =>
    match s.root with
    | none => false
    | some l =>
      if s.size < t.size then false
      else if !l.bd.containsBox r.bd then false
      else pairLoop l.weight r [l]

mutual
/-- RTree.h:768-782, first loop of `RTreeCRTP::contains(const RTreeCRTP &)`: every node boundary
of `other` is contained in the boundary `b` of this root. -/
def nodesWithin (b : Box) : Node → Bool
  | .mk _ b' ch _ => b.containsBox b' && nodesWithinL b ch
/-- The same on a list of subtrees. -/
def nodesWithinL (b : Box) : List Node → Bool
  | [] => true
  | c :: cs => nodesWithin b c && nodesWithinL b cs
end

/-- RTree.h:752-793, `RTreeCRTP::contains(const RTreeCRTP &)`, where the virtual call
`contains(*object)` dispatches to `IndexSet::contains(box)`. -/
def containsTree (s t : IndexSet) : Bool :=
  match t.root with
  | none => true
  | some r =>
    match s.root with
    | none => false
    | some l => nodesWithin l.bd r && r.objects.all fun o => s.containsBox o

/-- RTree.h:549-555, `operator==(const RTreeCRTP &)`, inherited by `IndexSet`
(include/marco/Modeling/IndexSet.h:106). The argument being a `const RTreeCRTP &`, the overload
called is `RTreeCRTP::contains(const RTreeCRTP &)`. -/
def eq (s t : IndexSet) : Bool :=
  if s.rank != t.rank then false else s.containsTree t && t.containsTree s

/-- lib/Modeling/IndexSet.cpp:115-143, `compare`. -/
def compareRanges : List Box → List Box → Int
  | a :: as, b :: bs => if a.compare b != 0 then a.compare b else compareRanges as bs
  | [], _ :: _ => -1
  | _ :: _, [] => 1
  | [], [] => 0

/-- lib/Modeling/IndexSet.cpp:115-143, `compare`. -/
def compare (s t : IndexSet) : Int := compareRanges s.ranges t.ranges

/-! ### Operations returning a new set -/

/-- lib/Modeling/IndexSet.cpp:655-687, `intersect(box)`. -/
def intersectBox (s : IndexSet) (q : Box) : IndexSet :=
  match s.root with
  | none => s
  | some n =>
    if !n.bd.overlaps q then s.emptyCopy
    else ofRanges ((RTree.visit q n).map fun o => q.intersect o)

/-- lib/Modeling/IndexSet.cpp:689-742, `intersect(set)`. -/
def intersectSet (s t : IndexSet) : IndexSet :=
  match s.root with
  | none => s
  | some l =>
    match t.root with
    | none => s.emptyCopy
    | some r => ofRanges ((RTree.visitPairs l r).map fun p => p.1.intersect p.2)

/-- lib/Modeling/IndexSet.cpp:754-769 (and 250-268, the same loop in `insert`): for each stored
range subtract it from the current pieces; the pieces that overlap no stored range are emitted.
Returns the emitted pieces and the pieces left at the end. -/
def carve (ov : Box → Bool) : List Box → List Box → List Box → List Box × List Box
  | [], cur, out => (out, cur)
  | r :: rs, cur, out =>
    let diffs := cur.flatMap fun c => c.subtract r
    carve ov rs (diffs.filter fun d => ov d) (out ++ diffs.filter fun d => !ov d)

/-- lib/Modeling/IndexSet.cpp:744-772, `complement`. -/
def complement (s : IndexSet) (q : Box) : IndexSet :=
  if s.isEmpty then ofRanges [q]
  else ofRanges (carve s.overlapsBox s.ranges [q] []).1

/-- lib/Modeling/IndexSet.cpp:774-787 and 823-839, `slice(BitVector)` / `takeDimensions`. -/
def takeDims (s : IndexSet) (f : List Bool) : IndexSet :=
  if s.isEmpty then s else ofRanges (s.ranges.map fun r => r.takeDims f)

/-- lib/Modeling/IndexSet.cpp:789-804, `takeFirstDimensions`. -/
def takeFirst (s : IndexSet) (n : Nat) : IndexSet :=
  if s.isEmpty then s else ofRanges (s.ranges.map fun r => r.takeFirst n)

/-- lib/Modeling/IndexSet.cpp:806-821, `takeLastDimensions`. -/
def takeLast (s : IndexSet) (n : Nat) : IndexSet :=
  if s.isEmpty then s else ofRanges (s.ranges.map fun r => r.takeLast n)

/-- lib/Modeling/IndexSet.cpp:841-856, `dropFirstDimensions`. -/
def dropFirst (s : IndexSet) (n : Nat) : IndexSet :=
  if s.isEmpty then s else ofRanges (s.ranges.map fun r => r.dropFirst n)

/-- lib/Modeling/IndexSet.cpp:858-873, `dropLastDimensions`. -/
def dropLast (s : IndexSet) (n : Nat) : IndexSet :=
  if s.isEmpty then s else ofRanges (s.ranges.map fun r => r.dropLast n)

/-- lib/Modeling/IndexSet.cpp:875-891, `prepend`. -/
def prepend (s t : IndexSet) : IndexSet :=
  if s.isEmpty then s
  else ofRanges (s.ranges.flatMap fun r => t.ranges.map fun q => r.prepend q)

/-- lib/Modeling/IndexSet.cpp:893-909, `append`. -/
def append (s t : IndexSet) : IndexSet :=
  if s.isEmpty then s
  else ofRanges (s.ranges.flatMap fun r => t.ranges.map fun q => r.append q)

/-! ### Merging and compact ranges -/

/-- lib/Modeling/IndexSet.cpp:47-58 and 1030-1041, inner search: the first element of the list
(position from `j`) that can be merged with `a`. -/
def findMergeable (a : Box) : List Box → Option (Nat × Nat)
  | [] => none
  | b :: bs =>
    match a.canBeMerged b with
    | (true, d) => some (0, d)
    | (false, _) => (findMergeable a bs).map fun (j, d) => (j + 1, d)

/-- lib/Modeling/IndexSet.cpp:60-70 and 1043-1054: merge the first mergeable pair (first by the
position of the first element), if any. -/
def mergeOnce : List Box → Option (List Box)
  | [] => none
  | a :: l =>
    match findMergeable a l with
    | some (j, d) =>
      match l[j]? with
      | some b => some (a.merge b d :: l.eraseIdx j)
      | none => none
    | none => (mergeOnce l).map (a :: ·)

/-- lib/Modeling/IndexSet.cpp:60-70 and 1043-1054: repeat until no pair can be merged. Each
iteration shortens the list. -/
def mergeAll : Nat → List Box → List Box
  | 0, l => l
  | fuel + 1, l =>
    match mergeOnce l with
    | some l' => mergeAll fuel l'
    | none => l

/-- lib/Modeling/IndexSet.cpp:39-73, `merge`. -/
def mergeBoxes (l : List Box) : List Box := mergeAll l.length l

/-- lib/Modeling/IndexSet.cpp:911-917, `postObjectInsertionHook` on the objects of a leaf. -/
def insertionHook (l : List Box) : List Box := mergeBoxes (sortBoxes l)

/-- lib/Modeling/IndexSet.cpp:929-935, `shouldSplitRange` (dimension in bounds asserted). -/
def shouldSplit (r g : Box) (d : Nat) : Bool :=
  (g.getD d ⟨0, 0⟩).overlaps (r.getD d ⟨0, 0⟩)

/-- lib/Modeling/IndexSet.cpp:937-967, `splitRange`. -/
def splitRange (r g : Box) (d : Nat) : List Box :=
  let x := r.getD d ⟨0, 0⟩
  let y := g.getD d ⟨0, 0⟩
  (x.intersect y :: x.subtract y).map fun t => r.set d t

/-- lib/Modeling/IndexSet.cpp:981-998: one step of the inner `while` on the element `*it2 = r`
for the grid element `*it1 = g`: the elements that take its place. -/
def splitStep (d : Nat) (g r : Box) : List Box :=
  if shouldSplit r g d then splitRange r g d else [r]

/-- lib/Modeling/IndexSet.cpp:977-1000: the loop over `it1` for one dimension. The list is kept as
the elements before `it1` and those from `it1` on; the pieces of a split element are put in its
place, and not looked at again by the inner loop. The fuel bounds the number of iterations. -/
def splitLoop (d : Nat) : Nat → List Box → List Box → List Box
  | 0, l, r => l ++ r
  | _, l, [] => l
  | fuel + 1, l, g :: r =>
    splitLoop d fuel (l.flatMap (splitStep d g) ++ [g]) (r.flatMap (splitStep d g))

/-- Sum of the extents along a dimension: never changed by splitting along it, and decreasing
with each element passed by `it1`, so that it bounds the number of iterations. -/
def extent (d : Nat) (l : List Box) : Nat := (l.map fun r => (r.getD d ⟨0, 0⟩).size).sum

/-- lib/Modeling/IndexSet.cpp:976: the loop over the dimensions `0 .. rank - 2`. -/
def splitDims : List Nat → List Box → List Box
  | [], l => l
  | d :: ds, l => splitDims ds (splitLoop d (extent d l) [] l)

/-- lib/Modeling/IndexSet.cpp:969-1001, `splitRangesToMinGrid`. -/
def splitToMinGrid : List Box → List Box
  | [] => []
  | b :: l => splitDims (List.range (b.length - 1)) (b :: l)

/-- lib/Modeling/IndexSet.cpp:1015-1024: the loop of `removeDuplicateRanges` from the element
`a`. -/
def dedupFrom (a : Box) : List Box → List Box
  | [] => [a]
  | b :: l => if b.eqBox a then dedupFrom a l else a :: dedupFrom b l

/-- lib/Modeling/IndexSet.cpp:1003-1025, `removeDuplicateRanges`. -/
def removeDuplicates : List Box → List Box
  | [] => []
  | a :: l => dedupFrom a l

/-- lib/Modeling/IndexSet.cpp:1027-1055, `mergeRanges` (the same algorithm as `merge` of lines
39-73, on a linked list). -/
def mergeRanges (l : List Box) : List Box := mergeAll l.length l

/-- lib/Modeling/IndexSet.cpp:1059-1069, `getCompactRanges`. -/
def compactRanges (s : IndexSet) : List Box :=
  mergeRanges (removeDuplicates (sortBoxes (splitToMinGrid s.ranges)))

/-- lib/Modeling/IndexSet.cpp:107-113, `hash_value` (with `llvm::hash_value` of the size left
uninterpreted: the value that is hashed). -/
def hashKey (s : IndexSet) : Nat := if s.isEmpty then 0 else s.size

end IndexSet
end Marco
