import Verif.Model.IndexSet

/-!
# Model of the in-place updates of an R-tree (`/repo/include/marco/Modeling/RTree.h`)

A pointer to a node is the identity of the node. Using a pointer means locating the node in the tree;
if there is no such node the pointer is dangling, and the outcome is undefined behaviour. New nodes
always get an identity that was never used: whether the allocator reuses an address makes no
difference to a program that does not use dangling pointers.

The outcomes are: a result, undefined behaviour, and lack of fuel (the loop of
`collapseNodeAndPropagate` has no obvious bound).

Simplification: sizes are unbounded (RTree.h:126 caches them as `unsigned int`).
-/

namespace Marco
namespace RTree

/-- Why there is no result. -/
inductive Err where
  /-- undefined behaviour -/
  | ub
  /-- not enough fuel -/
  | fuel
deriving DecidableEq, Repr

/-- The outcome of an update. -/
abbrev Res := Except Err

/-- What is undefined behaviour if it has no value. -/
def orUb : Option α → Res α
  | some a => .ok a
  | none => .error .ub

/-- The constants of a tree (RTree.h:504-507), the choices made by its heuristics and the hook
(RTree.h:1152, IndexSet.cpp:911) called on the objects of a leaf after an insertion. -/
structure Cfg where
  mn : Nat
  mx : Nat
  /-- position chosen by `chooseDestinationNode` -/
  choose : List Node → Box → Nat
  /-- the groups made by `splitNode` of a leaf -/
  splitObs : List Box → Option (List Box × List Box)
  /-- the groups made by `splitNode` of an inner node -/
  splitCh : List Node → Option (List Node × List Node)
  /-- `postObjectInsertionHook` -/
  hook : List Box → List Box

/-! ### Positions -/

/-- One step of the path from a node to the root: the parent (without the node) and the children
before and after the node. -/
structure Frame where
  id : Nat
  bd : Box
  left : List Node
  right : List Node
  obs : List Box

/-- The path from a node to the root. -/
abbrev Ctx := List Frame

/-- The parent, with the given node at its place. -/
def Frame.fill (f : Frame) (n : Node) : Node := .mk f.id f.bd (f.left ++ n :: f.right) f.obs

/-- The whole tree, with the given node at its place. -/
def plug : Ctx → Node → Node
  | [], n => n
  | f :: ctx, n => plug ctx (f.fill n)

mutual
/-- Find the node with the given identity. -/
def locate (k : Nat) : Node → Option (Ctx × Node)
  | .mk i b ch obs =>
    if i = k then some ([], .mk i b ch obs)
    else (locateL k ch).map fun (l, ctx, n, r) => (ctx ++ [⟨i, b, l, r, obs⟩], n)
/-- The same in a list of subtrees, with the subtrees before and after. -/
def locateL (k : Nat) : List Node → Option (List Node × Ctx × Node × List Node)
  | [] => none
  | c :: cs =>
    match locate k c with
    | some (ctx, n) => some ([], ctx, n, cs)
    | none => (locateL k cs).map fun (l, ctx, n, r) => (c :: l, ctx, n, r)
end

/-- Use a pointer. -/
def deref (t : Node) (k : Nat) : Res (Ctx × Node) := orUb (locate k t)

/-- The elements before a position, the one there and those after. -/
def focus (l : List α) (i : Nat) : Option (List α × α × List α) :=
  match l.drop i with
  | [] => none
  | x :: r => some (l.take i, x, r)

/-! ### Boundaries -/

/-- RTree.h:181-189, `recalcBoundary` (the boundary of an empty node is undefined). -/
def recalc (n : Node) : Res Node := orUb ((computeBoundary n).map fun b => .mk n.id b n.ch n.obs)

/-- RTree.h:897-901, `updateBoundaries`. -/
def updateBoundaries : Ctx → Node → Res Node
  | ctx, n =>
    match computeBoundary n with
    | none => .error .ub
    | some b =>
      if b = n.bd then .ok (plug ctx n)
      else
        match ctx with
        | [] => .ok (.mk n.id b n.ch n.obs)
        | f :: ctx => updateBoundaries ctx (f.fill (.mk n.id b n.ch n.obs))

/-! ### Heuristics -/

/-- `std::min_element` / `std::max_element`: the first position that is not improved by a later
one. -/
def scan (better : α → α → Bool) : Nat → Nat × α → List α → Nat
  | _, best, [] => best.1
  | i, best, x :: xs => scan better (i + 1) (if better best.2 x then (i, x) else best) xs

/-- The position of the first best element. -/
def firstBest (better : α → α → Bool) : List α → Option Nat
  | [] => none
  | x :: xs => some (scan better 1 (0, x) xs)

/-- RTree.h:917-952, `chooseDestinationNode`: least enlargement, then smallest enlarged boundary. -/
def chooseDestination (ns : List Node) (b : Box) : Nat :=
  (firstBest (fun x y : Nat × Nat => if y.1 == x.1 then y.2 < x.2 else y.1 < x.1)
    (ns.map fun c => ((mbr2 c.bd b).size - c.bd.size, (mbr2 c.bd b).size))).getD 0

/-- RTree.h:232-250: the waste of a pair of entries. -/
def waste (a b : Box) : Nat := (mbr2 a b).size - a.size - b.size

/-- RTree.h:230-250: the candidate pairs, with their waste. -/
def seedPairs (es : List Box) : List ((Nat × Nat) × Nat) :=
  (List.range es.length).flatMap fun i =>
    (List.range es.length).filterMap fun j =>
      if i < j then some ((i, j), waste (es.getD i []) (es.getD j [])) else none

/-- RTree.h:228-258, `pickSeeds`. -/
def pickSeeds (es : List Box) : Option (Nat × Nat) :=
  (firstBest (fun x y : (Nat × Nat) × Nat => decide (x.2 < y.2)) (seedPairs es)).bind fun i =>
    ((seedPairs es)[i]?).map Prod.fst

/-- The enlargement of the boundary `b` needed by the entry `e`. -/
def growth (e b : Box) : Nat := (mbr2 e b).size - b.size

/-- RTree.h:261-292, `pickNext`: the position, among the remaining entries, of the first with the
greatest preference for one group. -/
def pickNext (rem : List Box) (b1 b2 : Box) : Option Nat :=
  firstBest (fun x y : Nat => decide (x < y)) (rem.map fun e =>
    max (growth e b1) (growth e b2) - min (growth e b1) (growth e b2))

/-- RTree.h:362-398: whether the entry goes to the first group. -/
def toFirst (e b1 b2 : Box) (n1 n2 : Nat) : Bool :=
  if growth e b1 == growth e b2 then
    if b1.size == b2.size then decide (n1 ≤ n2) else decide (b1.size < b2.size)
  else decide (growth e b1 < growth e b2)

/-- RTree.h:337-399, the loop of `splitNode`; the boundaries of the two groups are those of the seeds
until the end. One fuel unit per entry. -/
def splitLoop (shape : α → Box) (mn : Nat) (b1 b2 : Box) :
    Nat → List α → List α → List α → Option (List α × List α)
  | _, g1, g2, [] => some (g1, g2)
  | 0, _, _, _ => none
  | fuel + 1, g1, g2, rem =>
    if g1.length + rem.length == mn then some (g1 ++ rem, g2)
    else if g2.length + rem.length == mn then some (g1, g2 ++ rem)
    else
      (pickNext (rem.map shape) b1 b2).bind fun i =>
        (rem[i]?).bind fun e =>
          if toFirst (shape e) b1 b2 g1.length g2.length then
            splitLoop shape mn b1 b2 fuel (g1 ++ [e]) g2 (rem.eraseIdx i)
          else splitLoop shape mn b1 b2 fuel g1 (g2 ++ [e]) (rem.eraseIdx i)

/-- RTree.h:294-411, the groups made by `splitNode`. -/
def splitEntries (shape : α → Box) (mn : Nat) (es : List α) : Option (List α × List α) :=
  (pickSeeds (es.map shape)).bind fun (i, j) =>
    (es[i]?).bind fun a => (es[j]?).bind fun b =>
      splitLoop shape mn (shape a) (shape b) es.length [a] [b] ((es.eraseIdx j).eraseIdx i)

/-! ### Splitting -/

/-- RTree.h:294-411 with 1016-1042, `splitNode`: the two new nodes, with the given identities. -/
def splitNode (C : Cfg) (i1 i2 : Nat) (n : Node) : Res (Node × Node) :=
  if n.isLeaf then do
    let (a, b) ← orUb (C.splitObs n.obs)
    let x ← orUb (mkNode i1 [] a)
    let y ← orUb (mkNode i2 [] b)
    .ok (x, y)
  else do
    let (a, b) ← orUb (C.splitCh n.ch)
    let x ← orUb (mkNode i1 a [])
    let y ← orUb (mkNode i2 b [])
    .ok (x, y)

/-- RTree.h:975-1013, `splitNodeAndPropagate`: the tree and the next unused identity. A node that is
not the root keeps its identity (`*node = std::move(*newNodes.first)`); the root is destroyed. -/
def splitUp (C : Cfg) (next : Nat) : Ctx → Node → Res (Node × Nat)
  | [], n =>
    if n.fanOut > C.mx then do
      let (a, b) ← splitNode C next (next + 1) n
      .ok (.mk (next + 2) (mbr2 a.bd b.bd) [a, b] [], next + 3)
    else .ok (n, next)
  | f :: ctx, n =>
    if n.fanOut > C.mx then do
      let (a, b) ← splitNode C n.id next n
      let p : Node := .mk f.id f.bd (f.left ++ a :: (f.right ++ [b])) f.obs
      let p' ← if p.fanOut ≤ C.mx then recalc p else .ok p
      splitUp C (next + 1) ctx p'
    else do
      let t ← updateBoundaries ctx (f.fill n)
      .ok (t, next)

/-! ### Choice of a leaf -/

/-- RTree.h:904-913, `chooseLeaf`: the path to the leaf and the leaf. One fuel unit per level. -/
def chooseLeaf (C : Cfg) (b : Box) : Nat → Ctx → Node → Res (Ctx × Node)
  | 0, ctx, n => if n.isLeaf then .ok (ctx, n) else .error .fuel
  | fuel + 1, ctx, n =>
    if n.isLeaf then .ok (ctx, n)
    else do
      let (l, c, r) ← orUb (focus n.ch (C.choose n.ch b))
      chooseLeaf C b fuel (⟨n.id, n.bd, l, r, n.obs⟩ :: ctx) c

/-- RTree.h:209-213 with the hook: add an object to a leaf. -/
def addObject (C : Cfg) (n : Node) (b : Box) : Node := .mk n.id n.bd n.ch (C.hook (n.obs ++ [b]))

/-! ### Collapsing -/

/-- The state of `collapseNodeAndPropagate`: the tree, the next unused identity and
`nodesToCollapse` (the last element first). -/
structure Work where
  tree : Node
  next : Nat
  todo : List Nat

/-- RTree.h:1081-1100: relocate an object below the given node. -/
def relocateObject (C : Cfg) (parent : Nat) (w : Work) (o : Box) : Res Work := do
  let (ctx, p) ← deref w.tree parent
  let (ctx, d) ← chooseLeaf C o p.weight ctx p
  let d' := addObject C d o
  if d'.fanOut > C.mx then do
    let (t, next) ← splitUp C w.next ctx d'
    .ok { w with tree := t, next := next }
  else if d'.fanOut < C.mn then .ok { w with tree := plug ctx d', todo := d.id :: w.todo }
  else do
    let t ← updateBoundaries ctx d'
    .ok { w with tree := t }

/-- RTree.h:1080-1103: relocate the objects. -/
def relocateObjects (C : Cfg) (parent : Nat) : Work → List Box → Res Work
  | w, [] => .ok w
  | w, o :: os => do
    let w ← relocateObject C parent w o
    relocateObjects C parent w os

/-- RTree.h:1107-1121: relocate a node below the given node. -/
def relocateNode (C : Cfg) (parent : Nat) (w : Work) (c : Node) : Res Work := do
  let (ctx, p) ← deref w.tree parent
  let (l, d, r) ← orUb (focus p.ch (C.choose p.ch c.bd))
  let f : Frame := ⟨p.id, p.bd, l, r, p.obs⟩
  let d' : Node := .mk d.id d.bd (d.ch ++ [c]) d.obs
  if d'.fanOut > C.mx then do
    let (t, next) ← splitUp C w.next (f :: ctx) d'
    .ok { w with tree := t, next := next }
  else do
    let t ← updateBoundaries (f :: ctx) d'
    .ok { w with tree := t }

/-- RTree.h:1106-1122: relocate the nodes. -/
def relocateNodes (C : Cfg) (parent : Nat) : Work → List Node → Res Work
  | w, [] => .ok w
  | w, c :: cs => do
    let w ← relocateNode C parent w c
    relocateNodes C parent w cs

/-- RTree.h:1062-1124, the inner loop of `collapseNodeAndPropagate`: the final state and node. -/
def climb (C : Cfg) : Nat → Work → Nat → List Box → Res (Work × Nat)
  | 0, _, _, _ => .error .fuel
  | fuel + 1, w, k, objs => do
    let (ctx, n) ← deref w.tree k
    match ctx with
    | [] => .ok (w, k)
    | f :: ctx =>
      if n.fanOut < C.mn then do
        let w1 : Work := { w with tree := plug ctx (.mk f.id f.bd (f.left ++ f.right) f.obs) }
        let w2 ← if !objs.isEmpty && !(f.left ++ f.right).isEmpty
          then relocateObjects C f.id w1 objs else .ok w1
        let w3 ← relocateNodes C f.id w2 n.ch
        climb C fuel w3 f.id
          (if !objs.isEmpty && !(f.left ++ f.right).isEmpty then [] else objs)
      else .ok (w, k)

/-- RTree.h:1131-1133: a root with a single child is replaced by it. -/
def shrinkRoot (t : Node) : Node :=
  match t.ch with
  | [c] => c
  | _ => t

/-- RTree.h:1046-1134, the outer loop of `collapseNodeAndPropagate`. -/
def collapse (C : Cfg) : Nat → Work → Res (Node × Nat)
  | 0, _ => .error .fuel
  | fuel + 1, w =>
    match w.todo with
    | [] => .ok (w.tree, w.next)
    | k :: ks => do
      let (ctx, n) ← deref w.tree k
      let (w1, j) ← climb C fuel
        { w with tree := plug ctx (.mk n.id n.bd n.ch []), todo := ks } k n.obs
      let (ctx, n) ← deref w1.tree j
      let t ← updateBoundaries ctx n
      collapse C fuel { w1 with tree := shrinkRoot t }

/-- RTree.h:956-972, `adjustTree`: the tree, if it is not empty, and the next unused identity. -/
def adjustTree (C : Cfg) (fuel next : Nat) (ctx : Ctx) (n : Node) : Res (Option Node × Nat) :=
  if ctx.isEmpty then
    if n.fanOut = 0 then .ok (none, next)
    else if n.fanOut > C.mx then do
      let (t, next) ← splitUp C next ctx n
      .ok (some t, next)
    else do
      let t ← updateBoundaries ctx n
      .ok (some t, next)
  else if n.fanOut < C.mn then do
    let (t, next) ← collapse C fuel ⟨plug ctx n, next, [n.id]⟩
    .ok (some t, next)
  else if n.fanOut > C.mx then do
    let (t, next) ← splitUp C next ctx n
    .ok (some t, next)
  else do
    let t ← updateBoundaries ctx n
    .ok (some t, next)

/-- RTree.h:603-623, the part of `insert` that changes the tree. -/
def insert (C : Cfg) (fuel : Nat) (root : Option Node) (next : Nat) (b : Box) :
    Res (Option Node × Nat) :=
  match root with
  | none => .ok (some (.mk next b [] (C.hook [b])), next + 1)
  | some t => do
    let (ctx, n) ← chooseLeaf C b t.weight [] t
    adjustTree C fuel next ctx (addObject C n b)

/-- RTree.h:1166-1187 and 1204-1211, the leaves visited by `walkOverlappingLeafNodes`, as pointers.
One fuel unit per node. -/
def overlappingLeaves (q : Box) : Nat → List Node → List Nat
  | 0, _ => []
  | _, [] => []
  | fuel + 1, n :: st =>
    (if n.bd.overlaps q && n.isLeaf then [n.id] else []) ++
      overlappingLeaves q fuel (n.ch ++ st)

/-- The heuristics of the library, without hook. -/
def stdCfg (mn mx : Nat) : Cfg where
  mn := mn
  mx := mx
  choose := chooseDestination
  splitObs := splitEntries id mn
  splitCh := splitEntries Node.bd mn
  hook := id

end RTree

namespace IndexSet
open RTree

/-- The configuration of the tree of an index set: RTree.h:504-507, IndexSet.cpp:911-917. -/
def cfg : Cfg := { stdCfg minElements maxElements with hook := insertionHook }

/-- RTree.h:596-624, `RTreeCRTP::insert(T)` (equal ranks asserted). -/
def insertObject (C : Cfg) (fuel : Nat) (s : IndexSet) (b : Box) : Res IndexSet := do
  let (root, next) ← RTree.insert C fuel s.root s.next b
  .ok ⟨root, true, if s.init then s.rank else b.length, next⟩

/-- lib/Modeling/IndexSet.cpp:250-266: one iteration over the stored ranges; the pieces that may
still overlap and the pieces to be inserted. -/
def pieceStep (s : IndexSet) (acc : List Box × List Box) (r : Box) : List Box × List Box :=
  let diffs := acc.1.flatMap fun c => c.subtract r
  (diffs.filter fun d => s.overlapsBox d, acc.2 ++ diffs.filter fun d => !s.overlapsBox d)

/-- lib/Modeling/IndexSet.cpp:241-268: the pieces of a box that are not in the set. -/
def newPieces (s : IndexSet) (b : Box) : List Box :=
  if s.isEmpty then [b] else (s.ranges.foldl (pieceStep s) ([b], [])).2

/-- Insert objects one after the other. -/
def insertObjects (C : Cfg) (fuel : Nat) : IndexSet → List Box → Res IndexSet
  | s, [] => .ok s
  | s, b :: bs => do
    let s ← insertObject C fuel s b
    insertObjects C fuel s bs

/-- lib/Modeling/IndexSet.cpp:238-279, `insert(MultidimensionalRange)`, which is also
`operator+=(MultidimensionalRange)` (281-284). -/
def insertBox (C : Cfg) (fuel : Nat) (s : IndexSet) (b : Box) : Res IndexSet :=
  insertObjects C fuel s (newPieces s b)

/-- lib/Modeling/IndexSet.cpp:234-236, `operator+=(Point)`. -/
def insertPoint (C : Cfg) (fuel : Nat) (s : IndexSet) (p : Point) : Res IndexSet :=
  insertBox C fuel s (Box.ofPoint p)

/-- lib/Modeling/IndexSet.cpp:286-289 with RTree.h:626-631, `operator+=(IndexSet)`. -/
def insertBoxes (C : Cfg) (fuel : Nat) : IndexSet → List Box → Res IndexSet
  | s, [] => .ok s
  | s, b :: bs => do
    let s ← insertBox C fuel s b
    insertBoxes C fuel s bs

/-- lib/Modeling/IndexSet.cpp:325-339: what is left of the objects of a leaf. -/
def differences (q : Box) (obs : List Box) : List Box :=
  obs.flatMap fun o => if o.overlaps q then o.subtract q else [o]

/-- lib/Modeling/IndexSet.cpp:325-346: one leaf. -/
def removeFromLeaf (C : Cfg) (fuel : Nat) (q : Box) (s : IndexSet) (k : Nat) : Res IndexSet := do
  let t ← orUb s.root
  let (ctx, n) ← deref t k
  let n' : Node := .mk n.id n.bd n.ch (differences q n.obs)
  if n.obs.any fun o => o.overlaps q then do
    let (root, next) ← adjustTree C fuel s.next ctx n'
    .ok { s with root := root, next := next }
  else .ok { s with root := some (plug ctx n') }

/-- lib/Modeling/IndexSet.cpp:325-346: the leaves one after the other. -/
def removeFromLeaves (C : Cfg) (fuel : Nat) (q : Box) : IndexSet → List Nat → Res IndexSet
  | s, [] => .ok s
  | s, k :: ks => do
    let s ← removeFromLeaf C fuel q s k
    removeFromLeaves C fuel q s ks

/-- lib/Modeling/IndexSet.cpp:313-353, `remove(MultidimensionalRange)`, which is also
`operator-=(MultidimensionalRange)` (355-364). -/
def removeBox (C : Cfg) (fuel : Nat) (s : IndexSet) (q : Box) : Res IndexSet :=
  match s.root with
  | none => .ok s
  | some t => removeFromLeaves C fuel q s (overlappingLeaves q t.weight [t])

/-- Remove boxes one after the other. -/
def removeBoxes (C : Cfg) (fuel : Nat) : IndexSet → List Box → Res IndexSet
  | s, [] => .ok s
  | s, b :: bs => do
    let s ← removeBox C fuel s b
    removeBoxes C fuel s bs

/-- RTree.h:664-717 with lib/Modeling/IndexSet.cpp:366-376, `operator-=(IndexSet)` of another set. -/
def removeSet (C : Cfg) (fuel : Nat) (s t : IndexSet) : Res IndexSet :=
  match s.root, t.root with
  | some l, some r => removeBoxes C fuel s ((visitPairs l r).map Prod.snd)
  | _, _ => .ok s

/-- lib/Modeling/IndexSet.cpp:381-385, `operator-(MultidimensionalRange)`. The copy constructor
(RTree.h:137-147, 528-531) makes a node for each node; here nodes of different sets are never shared,
so that the copy is the same tree. -/
def differenceBox (C : Cfg) (fuel : Nat) (s : IndexSet) (q : Box) : Res IndexSet := do
  let result := s
  let result ← removeBox C fuel result q
  .ok result

/-- lib/Modeling/IndexSet.cpp:387-391, `operator-(IndexSet)`. -/
def differenceSet (C : Cfg) (fuel : Nat) (s t : IndexSet) : Res IndexSet := do
  let result := s
  let result ← removeSet C fuel result t
  .ok result

end IndexSet
end Marco
