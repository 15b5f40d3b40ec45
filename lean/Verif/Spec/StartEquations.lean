import Verif.Model.StartEquations
import Verif.Spec.Parallelize

/-!
# Where the start equations should be
-/

namespace Marco.Spec.StartEqs
open Marco.Par Marco.StartEqs

/-- The first writes something the second reads. -/
def Feeds (x y : Blk) : Prop := ∃ r ∈ y.reads, ReadsFrom r x

/-- Both write a same element. -/
def Shares (x y : Blk) : Prop := ∃ w ∈ y.writes, ReadsFrom w x

/-- The first operation is somewhere before the second one. -/
def Before (l : List Item) (x y : Item) : Prop := ∃ a b c, l = a ++ x :: (b ++ y :: c)

/-- The ranges of each variable are non-empty and of one rank; a scalar variable is written by one SCC
only, and by one start equation only; each start equation writes one variable. -/
structure WellFormed (sccs starts : List Blk) : Prop where
  valid : ∀ b ∈ sccs ++ starts, ∀ a ∈ b.reads ++ b.writes, ∀ x ∈ a.indices, ∀ r ∈ x, r.Valid
  rank : ∃ rk : ℕ → ℕ, ∀ b ∈ sccs ++ starts, ∀ a ∈ b.reads ++ b.writes, ∀ x ∈ a.indices,
    x.length = rk a.var
  oneScc : ∀ (i j : ℕ) (bi bj : Blk), sccs[i]? = some bi → sccs[j]? = some bj →
    ∀ w ∈ bi.writes, ∀ w' ∈ bj.writes, w.var = w'.var → w.indices = [] → w'.indices = [] → i = j
  oneStart : ∀ (i j : ℕ) (bi bj : Blk), starts[i]? = some bi → starts[j]? = some bj →
    ∀ w ∈ bi.writes, ∀ w' ∈ bj.writes, w.var = w'.var → w.indices = [] → w'.indices = [] → i = j
  one : ∀ s ∈ starts, ∃ w, s.writes = [w]

/-- The order of the SCCs is one the scheduler may have chosen: each comes after the other ones it
depends on. -/
def Scheduled (sccs starts : List Blk) : Prop :=
  ∀ (i : ℕ) (b : Blk), sccs[i]? = some b → ∀ k ∈ dependencies sccs starts b, k ≠ i → k < i

/-- What has to come before what. -/
inductive Needs (sccs starts : List Blk) : Item → Item → Prop
  /-- an SCC computes something another one reads -/
  | sccs {i j : ℕ} {b c : Blk} : i ≠ j → sccs[i]? = some b → sccs[j]? = some c → Feeds b c →
      Needs sccs starts (.scc i) (.scc j)
  /-- an SCC computes something a start equation reads -/
  | reads {i j : ℕ} {b s : Blk} : sccs[i]? = some b → starts[j]? = some s → Feeds b s →
      Needs sccs starts (.scc i) (.start j)
  /-- a start equation sets a variable that an SCC computes -/
  | writes {i j : ℕ} {b s : Blk} : sccs[i]? = some b → starts[j]? = some s → Shares b s →
      Needs sccs starts (.start j) (.scc i)
  /-- a start equation sets a variable that another one reads -/
  | starts {i j : ℕ} {s t : Blk} : i ≠ j → starts[i]? = some s → starts[j]? = some t → Feeds s t →
      Needs sccs starts (.start i) (.start j)
  /-- a start equation sets a variable that an SCC reads -/
  | readers {i j : ℕ} {b s : Blk} : sccs[i]? = some b → starts[j]? = some s → Feeds s b →
      Needs sccs starts (.start j) (.scc i)

/-- There are no cycles. -/
def Acyclic (sccs starts : List Blk) : Prop :=
  ∃ rank : Item → ℕ, ∀ x y, Needs sccs starts x y → rank x < rank y

/-- The number of an SCC. -/
def sccNumber : Item → Option ℕ
  | .scc i => some i
  | .start _ => none

/-- The number of a start equation. -/
def startNumber : Item → Option ℕ
  | .scc _ => none
  | .start j => some j

/-- All the SCCs, in their order, and each start equation once. -/
def Complete (sccs starts : List Blk) (block : List Item) : Prop :=
  block.filterMap sccNumber = List.range sccs.length ∧
    (block.filterMap startNumber).Perm (List.range starts.length)

end Marco.Spec.StartEqs
