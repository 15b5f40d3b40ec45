import Verif.Model.MCIM

/-!
# Model of `Matchable` (`/repo/lib/Modeling/Matching.cpp`) and of the parts of the graph vertices
(`/repo/include/marco/Modeling/Matching.h`) that update it

Simplifications: the in-place updates `+=` and `-=` of index sets are `IndexSet.union` and
`IndexSet.minus` (see `Verif/Model/MCIM.lean`); the shared pointer to the matchable indices is the
set itself. The assertions are not part of the functions.
-/

namespace Marco

/-- include/marco/Modeling/Matching.h:91-119. -/
structure Matchable where
  matchable : IndexSet
  matched : IndexSet
  unmatched : IndexSet

namespace Matchable

/-- lib/Modeling/Matching.cpp:4-7, the constructor. -/
def new (indices : IndexSet) : Matchable := ⟨indices, IndexSet.empty, indices⟩

/-- lib/Modeling/Matching.cpp:14-18. -/
def setMatchableIndices (m : Matchable) (indices : IndexSet) : Matchable :=
  ⟨indices, m.matched.intersectSet indices, m.unmatched.intersectSet indices⟩

/-- lib/Modeling/Matching.cpp:24. -/
def allComponentsMatched (m : Matchable) : Bool := m.unmatched.isEmpty

/-- lib/Modeling/Matching.cpp:26-33. -/
def setMatch (m : Matchable) (indices : IndexSet) : Matchable :=
  { m with matched := indices, unmatched := m.matchable.minus indices }

/-- lib/Modeling/Matching.cpp:35-42. -/
def addMatch (m : Matchable) (newMatch : IndexSet) : Matchable :=
  { m with matched := m.matched.union newMatch, unmatched := m.unmatched.minus newMatch }

/-- lib/Modeling/Matching.cpp:44-48. -/
def removeMatch (m : Matchable) (removed : IndexSet) : Matchable :=
  { m with matched := m.matched.minus removed, unmatched := m.unmatched.union removed }

/-- include/marco/Modeling/Matching.h:270-280, `VariableVertex::removeIndices` (together with
`setIndices`, 261-265). The result tells whether some index is left. -/
def removeIndices (m : Matchable) (removed : IndexSet) : Bool × Matchable :=
  let left := m.matchable.minus removed
  if left.isEmpty then (false, m) else (true, m.setMatchableIndices left)

/-- include/marco/Modeling/Matching.h:555-565, `EquationVertex::removeIndices`. Its `setIndices`
(546-550) moves the shared pointer away and then passes it to `setMatchableIndices`, which
dereferences it: undefined behaviour (`none`) whenever some index is left. -/
def removeIndicesEq (m : Matchable) (removed : IndexSet) : Option (Bool × Matchable) :=
  if (m.matchable.minus removed).isEmpty then some (false, m) else none

/-- include/marco/Modeling/Matching.h:295-305 and 580-591, `withMask(IndexSet)` (with a set made of
one point: 284-293 and 569-578). -/
def withMask (m : Matchable) (mask : IndexSet) : Matchable :=
  let result := new mask
  let matched := m.matched.intersectSet mask
  if matched.isEmpty then result else result.addMatch matched

end Matchable
end Marco
