import Verif.Model.Parallelize
import Verif.Spec.Sets

/-! # Dependencies among blocks -/

namespace Marco.Spec
open Marco.Par

/-- Some element of the variable is read by the access and written by the block. -/
def ReadsFrom (r : Access) (b : Blk) : Prop :=
  ∃ w ∈ b.writes, r.var = w.var ∧
    ((r.indices = [] ∧ w.indices = []) ∨ ∃ p, InL p r.indices ∧ InL p w.indices)

/-- Block `i` reads something that another block `j` writes. -/
def BlockDepends (blocks : List Blk) (i j : Nat) : Prop :=
  i ≠ j ∧ ∃ bi bj, blocks[i]? = some bi ∧ blocks[j]? = some bj ∧ ∃ r ∈ bi.reads, ReadsFrom r bj

/-- The ranges of each variable are non-empty and of one rank, and a scalar variable is written by
one block only. -/
structure WellFormedBlocks (blocks : List Blk) : Prop where
  valid : ∀ b ∈ blocks, ∀ a ∈ b.reads ++ b.writes, ∀ x ∈ a.indices, ∀ r ∈ x, r.Valid
  rank : ∃ rk : Nat → Nat, ∀ b ∈ blocks, ∀ a ∈ b.reads ++ b.writes, ∀ x ∈ a.indices,
    x.length = rk a.var
  single : ∀ (i j : Nat) (bi bj : Blk), blocks[i]? = some bi → blocks[j]? = some bj →
    ∀ w ∈ bi.writes, ∀ w' ∈ bj.writes, w.var = w'.var → w.indices = [] → w'.indices = [] → i = j

/-- There are no cyclic dependencies. -/
def AcyclicBlocks (blocks : List Blk) : Prop :=
  ∃ rank : Nat → Nat, ∀ i j, BlockDepends blocks i j → rank j < rank i

/-- A sequence of groups executes every block once, in an admissible order, and within the limit. -/
structure GoodGroups (blocks : List Blk) (max : ℤ) (gs : List (List Nat)) : Prop where
  /-- every block exactly once -/
  once : gs.flatten.Perm (List.range blocks.length)
  /-- after every block that writes what it reads -/
  order : ∀ pre g post, gs = pre ++ g :: post → ∀ i ∈ g, ∀ j, BlockDepends blocks i j → j ∈ pre.flatten
  /-- the blocks of a group are independent -/
  independent : ∀ g ∈ gs, ∀ i ∈ g, ∀ j ∈ g, ¬ BlockDepends blocks i j
  /-- the limit -/
  size : max ≠ -1 → ∀ g ∈ gs, (g.length : ℤ) ≤ max

end Marco.Spec
