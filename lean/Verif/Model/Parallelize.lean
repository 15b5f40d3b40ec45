import Verif.Model.Box

/-!
# Model of the schedule parallelization
(`/repo/lib/Dialect/BaseModelica/Transforms/ScheduleParallelization.cpp`, and `WritesMap` of
`/repo/include/marco/Dialect/BaseModelica/IR/Dialect.h`)

A block is identified by its position. A variable is a number; its indices are the list of stored
ranges of the index set, empty for scalars. The R-tree of the writes map is the list of its entries
(C15 is about the walk over overlapping objects). The order in which `getWrites` returns the writing
blocks depends on the R-tree; it has no influence on the result, and the model takes the order of
the blocks. A failing assertion is `none`.
-/

namespace Marco.Par
open Marco.Box

/-- A variable with indices (`Variable` in the properties of ScheduleBlockOp). -/
structure Access where
  var : Nat
  indices : List Box
  deriving DecidableEq, Repr

/-- ScheduleBlockOp: the variables read and written. -/
structure Blk where
  reads : List Access
  writes : List Access
  deriving DecidableEq, Repr

/-- Dialect.h:166-176 and Dialect.cpp:781-801: the block is entered in the R-tree of the variable
with a range overlapping one of the given ranges. -/
def writesArray (b : Blk) (var : Nat) (indices : List Box) : Bool :=
  b.writes.any fun w => w.var == var && w.indices.any fun r => indices.any fun s => r.overlaps s

/-- The block is entered in the scalar map. -/
def writesScalar (b : Blk) (var : Nat) : Bool :=
  b.writes.any fun w => w.var == var && w.indices.isEmpty

/-- WritesMap::getWrites (Dialect.h:131-164) after `getWritesMap` (Dialect.cpp:781-801): the positions of the
writing blocks. The scalar map keeps the last block. -/
def getWrites (blocks : List Blk) (a : Access) : List Nat :=
  if a.indices.isEmpty then
    (((List.range blocks.length).filter fun j =>
      (blocks[j]?.map (writesScalar · a.var)).getD false).getLast?).toList
  else
    (List.range blocks.length).filter fun j =>
      (blocks[j]?.map (writesArray · a.var a.indices)).getD false

/-- ScheduleParallelization.cpp:227-244: the writing blocks found for the reads of a block, in
sequence, without the block itself. -/
def found (blocks : List Blk) (i : Nat) : List Nat :=
  (((blocks[i]?.map Blk.reads).getD []).flatMap (getWrites blocks)).filter (· != i)

/-- `inDegrees` (line 241: one increment for each writing block of each read variable). -/
def inDegree (blocks : List Blk) (i : Nat) : Nat := (found blocks i).length

/-- `dependantBlocks` (line 240: a set, in the order of insertion). -/
def dependants (blocks : List Blk) (j : Nat) : List Nat :=
  (List.range blocks.length).filter fun i => (found blocks i).contains j

/-- ScheduleParallelization.cpp:267-273: releases the dependent blocks. -/
def release : List Nat → (Nat → Nat) → List Nat → Option ((Nat → Nat) × List Nat)
  | [], deg, new => some (deg, new)
  | i :: is, deg, new =>
    if deg i = 0 then none
    else
      let deg' := fun k => if k = i then deg i - 1 else deg k
      release is deg' (if deg' i = 0 then new ++ [i] else new)

/-- The test of lines 263-264; -1 is "unlimited". -/
def room (max : ℤ) (ind : List Nat) : Bool := max == -1 || decide ((ind.length : ℤ) < max)

/-- ScheduleParallelization.cpp:260-277: one pass over the current blocks. -/
def pass (dep : Nat → List Nat) (max : ℤ) :
    List Nat → (Nat → Nat) → List Nat → List Nat → Option ((Nat → Nat) × List Nat × List Nat)
  | [], deg, ind, new => some (deg, ind, new)
  | b :: bs, deg, ind, new =>
    if deg b ≠ 0 then none
    else if room max ind then do
      let (deg, new) ← release (dep b) deg new
      pass dep max bs deg (ind ++ [b]) new
    else pass dep max bs deg ind (new ++ [b])

/-- ScheduleParallelization.cpp:256-284: the groups. -/
def loop (dep : Nat → List Nat) (max : ℤ) : Nat → List Nat → (Nat → Nat) → Option (List (List Nat))
  | 0, _, _ => none
  | fuel + 1, cur, deg =>
    if cur.isEmpty then some []
    else do
      let (deg, ind, new) ← pass dep max cur deg [] []
      if ind.isEmpty then none
      else
        let gs ← loop dep max fuel new deg
        some (ind :: gs)

/-- ScheduleParallelization.cpp:202-305: the groups that are created, in order. -/
def parallelize (blocks : List Blk) (max : ℤ) : Option (List (List Nat)) :=
  let n := blocks.length
  let cur := (List.range n).filter fun i => inDegree blocks i == 0
  loop (dependants blocks) max (n + 1) cur (inDegree blocks)

/-- The blocks after the rewriting (lines 286-302): blocks that are in no group keep their place,
which is before the groups. -/
def rewritten (blocks : List Blk) (max : ℤ) : Option (List (List Nat)) := do
  let gs ← parallelize blocks max
  some (((List.range blocks.length).filter fun i => !gs.flatten.contains i).map ([·]) ++ gs)

end Marco.Par
