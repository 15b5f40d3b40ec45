import Verif.Model.Box

/-!
# Model of the R-tree (`/repo/include/marco/Modeling/RTree.h`, `/repo/lib/Modeling/RTree.cpp`)

A node carries an identity standing for its address (so that a pointer held across a mutation
can be resolved again, or found dangling), its stored boundary, its children and its objects.
Objects are boxes, i.e. the instance `T = MultidimensionalRange` used by `IndexSet`.

Simplifications:
* the parent pointer is not stored: it is recovered from the position in the tree
  (RTree.h:206-210, 988-999, 1033-1039 keep it consistent);
* `coveredSpaceSize` (RTree.h:126, an `unsigned int` cache) is recomputed from the boundary, in
  unbounded arithmetic: it is only used by the heuristics.
-/

namespace Marco

/-- RTree.h:115-147, a node: identity (address), boundary, children, objects. -/
inductive Node where
  | mk (id : Nat) (bd : Box) (ch : List Node) (obs : List Box)
deriving Repr

namespace Node

/-- The address of the node. -/
def id : Node → Nat | .mk i _ _ _ => i
/-- RTree.h:165, `getBoundary`. -/
def bd : Node → Box | .mk _ b _ _ => b
/-- RTree.h:129, `children`. -/
def ch : Node → List Node | .mk _ _ c _ => c
/-- RTree.h:130, `objects`. -/
def obs : Node → List Box | .mk _ _ _ o => o

/-- RTree.h:159-163, `isLeaf`. -/
def isLeaf (n : Node) : Bool := n.ch.isEmpty

/-- RTree.h:197-203, `fanOut`. -/
def fanOut (n : Node) : Nat := if n.isLeaf then n.obs.length else n.ch.length

mutual
/-- Number of nodes of a subtree; bounds the number of iterations of the traversal loops. -/
def weight : Node → Nat
  | .mk _ _ ch _ => 1 + weightL ch
/-- Number of nodes of a list of subtrees. -/
def weightL : List Node → Nat
  | [] => 0
  | c :: cs => weight c + weightL cs
end

mutual
/-- RTree.h:413-493, the sequence produced by `ObjectIterator`: the objects of the leaves, left
to right. -/
def objects : Node → List Box
  | .mk _ _ ch obs => match ch with
    | [] => obs
    | c :: cs => objectsL (c :: cs)
/-- Objects of a list of subtrees, left to right. -/
def objectsL : List Node → List Box
  | [] => []
  | c :: cs => objects c ++ objectsL cs
end

end Node

namespace RTree

/-- lib/Modeling/RTree.cpp:23-37, `getMBR` of two boxes (equal ranks asserted). -/
def mbr2 (a b : Box) : Box := List.zipWith (fun r s => ⟨min r.b s.b, max r.e s.e⟩) a b

/-- RTree.h:98-112, `getMBR` of a sequence; reading `objects[0]` of an empty sequence is
undefined behaviour (`none`). -/
def mbrList : List Box → Option Box
  | [] => none
  | b :: bs => some (bs.foldl mbr2 b)

/-- RTree.h:169-177, `computeBoundary`. -/
def computeBoundary (n : Node) : Option Box :=
  if n.isLeaf then mbrList n.obs else mbrList (n.ch.map Node.bd)

/-! ### Searches (one fuel unit per popped node) -/

/-- The loop shared by `IndexSet::overlaps(box)`, `IndexSet::contains(box)` and
`IndexSet::intersect(box)` (lib/Modeling/IndexSet.cpp:587-601, 443-463, 670-684): pop a node,
push the children whose boundary overlaps the query, visit the objects of the node that overlap
it. The result is the sequence of visited objects. Also `walkOverlappingObjects`-style
enumeration used by the dependency graphs. The stack top is the list head. -/
def visitLoop (q : Box) : Nat → List Node → List Box
  | 0, _ => []
  | _, [] => []
  | fuel + 1, n :: st =>
    n.obs.filter (fun o => o.overlaps q) ++
      visitLoop q fuel ((n.ch.filter (fun c => c.bd.overlaps q)).reverse ++ st)

/-- Search from a root node: lib/Modeling/IndexSet.cpp:581-601. -/
def visit (q : Box) (root : Node) : List Box :=
  if root.bd.overlaps q then visitLoop q root.weight [root] else []

/-- RTree.h:1166-1187 with 1204-1211 and 1228-1237, `walkOverlappingObjects`: nodes are all
visited, in pre-order, and only the leaves whose boundary overlaps the query are searched. -/
def walkLoop (q : Box) : Nat → List Node → List Box
  | 0, _ => []
  | _, [] => []
  | fuel + 1, n :: st =>
    (if n.bd.overlaps q && n.isLeaf then n.obs.filter (fun o => o.overlaps q) else []) ++
      walkLoop q fuel (n.ch ++ st)

/-- RTree.h:1240-1249, `walkOverlappingObjects`. -/
def walkOverlappingObjects (q : Box) (root : Node) : List Box := walkLoop q root.weight [root]

/-- The pair descent shared by `IndexSet::overlaps(set)`, `IndexSet::intersect(set)` and
`RTreeCRTP::remove(Derived)` (lib/Modeling/IndexSet.cpp:621-650, 710-739, RTree.h:680-710): the
sequence of pairs of overlapping objects. -/
def visitPairsLoop : Nat → List (Node × Node) → List (Box × Box)
  | 0, _ => []
  | _, [] => []
  | fuel + 1, (l, r) :: st =>
    if l.isLeaf then
      if r.isLeaf then
        (l.obs.flatMap fun a => (r.obs.filter (fun b => a.overlaps b)).map fun b => (a, b)) ++
          visitPairsLoop fuel st
      else
        visitPairsLoop fuel
          (((r.ch.filter (fun c => c.bd.overlaps l.bd)).map fun c => (l, c)).reverse ++ st)
    else
      visitPairsLoop fuel
        (((l.ch.filter (fun c => c.bd.overlaps r.bd)).map fun c => (c, r)).reverse ++ st)

/-- Pair search from two roots: lib/Modeling/IndexSet.cpp:611-650. The number of popped pairs
is at most the product of the numbers of nodes. -/
def visitPairs (l r : Node) : List (Box × Box) :=
  if l.bd.overlaps r.bd then visitPairsLoop (l.weight * r.weight) [(l, r)] else []

/-! ### Bulk loading -/

/-- Node constructor followed by filling `objects`/`children` and `recalcBoundary`
(RTree.h:814-821, 833-838, 845-856, 863-869). -/
def mkNode (id : Nat) (ch : List Node) (obs : List Box) : Option Node :=
  (computeBoundary (.mk id [] ch obs)).map fun b => .mk id b ch obs

/-- RTree.h:813-827: the groups of `minElements` consecutive objects; the `remainingElements`
left over are appended to the first groups, one each. -/
def leafGroups (mn : Nat) (objs : List Box) : List (List Box) :=
  let g := objs.length / mn
  (List.range g).map fun i =>
    ((objs.drop (i * mn)).take mn) ++ ((objs.drop (g * mn + i)).take 1)

/-- RTree.h:844-857: split the nodes of a level in consecutive groups of `maxElements`. -/
def chunks (mx : Nat) : Nat → List α → List (List α)
  | 0, _ => []
  | _, [] => []
  | fuel + 1, x :: xs => (x :: xs).take mx :: chunks mx fuel ((x :: xs).drop mx)

/-- Allocate a node for each group, with increasing addresses. -/
def mkLevel (mk : Nat → α → Option Node) : Nat → List α → Option (List Node)
  | _, [] => some []
  | next, g :: gs => do
    let n ← mk next g
    let ns ← mkLevel mk (next + 1) gs
    some (n :: ns)

/-- RTree.h:841-860: build parent levels until at most `maxElements` nodes are left. -/
def levelsLoop (mx : Nat) : Nat → Nat → List Node → Option (Nat × List Node)
  | 0, next, ns => some (next, ns)
  | fuel + 1, next, ns =>
    if ns.length > mx then do
      let ns' ← mkLevel (fun i g => mkNode i g []) next (chunks mx ns.length ns)
      levelsLoop mx fuel (next + ns'.length) ns'
    else some (next, ns)

/-- RTree.h:796-877, `setFromObjects` on a non-empty list: the resulting root and the next
unused address. -/
def setFromObjects (mn mx : Nat) (objs : List Box) : Option (Nat × Node) := do
  let leaves ← mkLevel (fun i g => mkNode i [] g) 0
    (if objs.length > mx then leafGroups mn objs else [objs])
  let (next, ns) ← levelsLoop mx leaves.length leaves.length leaves
  match ns with
  | [] => none
  | [n] => some (next, n)
  | ns => do
    let r ← mkNode next ns []
    some (next + 1, r)

/-! ### The invariant checked by `isValid` -/

/-- RTree.h:1297-1323, one node of `checkMBRsInvariant`. -/
def mbrExact (n : Node) : Bool := computeBoundary n == some n.bd

mutual
/-- RTree.h:1297-1323, `checkMBRsInvariant` on a subtree. -/
def mbrsOk : Node → Bool
  | .mk i b ch obs => mbrExact (.mk i b ch obs) && mbrsOkL ch
/-- The same on a list of subtrees. -/
def mbrsOkL : List Node → Bool
  | [] => true
  | c :: cs => mbrsOk c && mbrsOkL cs
end

mutual
/-- RTree.h:1336-1347, `checkFanOutInvariant` on a non-root subtree. -/
def fanOk (mn mx : Nat) : Node → Bool
  | .mk i b ch obs =>
    decide (mn ≤ (Node.mk i b ch obs).fanOut) && decide ((Node.mk i b ch obs).fanOut ≤ mx) &&
      fanOkL mn mx ch
/-- The same on a list of subtrees. -/
def fanOkL (mn mx : Nat) : List Node → Bool
  | [] => true
  | c :: cs => fanOk mn mx c && fanOkL mn mx cs
end

/-- RTree.h:1254-1351, `isValid` of a tree with the given root (the parent relationships hold by
construction of the model). -/
def isValid (mn mx : Nat) (root : Node) : Bool := mbrsOk root && fanOkL mn mx root.ch

end RTree
end Marco
