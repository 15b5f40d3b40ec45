import Mathlib.Data.List.Basic

/-!
# Model of the lowering of component references that are read
(`/repo/lib/Codegen/Lowering/ComponentReferenceLowerer.cpp`, `/repo/lib/Codegen/Lowering/SubscriptLowerer.cpp`)

A reference `a[i].b[:, 2].c` is lowered to a chain of views and component accesses. A value is modelled by its rank and by what
its elements are: an element of the value is an element of the variable, given by the indices into each component on the path.
Sizes are left out: the subscripts are within the sizes. The undeclared names (lines 23-28, 56-61) are left out.
-/

namespace Marco.CompRead

/-- A subscript of the language, counted from 1: `:`, an index, or a range with begin and step. The end of a range decides only
how many elements there are. -/
inductive Sub where
  | all
  | index (i : Int)
  | range (b s : Int)
  deriving DecidableEq, Repr

/-- A subscript of `TensorViewOp`, counted from 0. -/
inductive VSub where
  | all
  | index (i : Int)
  | range (b s : Int)
  deriving DecidableEq, Repr

/-- `SubscriptLowerer::lower` (`/repo/lib/Codegen/Lowering/SubscriptLowerer.cpp:10-42`): -1 is added to an index or to a range. -/
def lowerSub : Sub → VSub
  | .all => .all
  | .index i => .index (i + -1)
  | .range b s => .range (b + -1) s

/-- A value: its rank and its elements. -/
structure Val where
  rank : Nat
  elem : List Int → List (List Int)

/-- The index into the source of an element of a `TensorViewOp`; dimensions without a subscript are kept. -/
def viewIndex : List VSub → List Int → List Int
  | [], idx => idx
  | .index i :: subs, idx => i :: viewIndex subs idx
  | .all :: subs, i :: idx => i :: viewIndex subs idx
  | .range b s :: subs, i :: idx => (b + i * s) :: viewIndex subs idx
  | _ :: _, [] => []

/-- The dimensions that a subscript leaves. -/
def VSub.dims : VSub → Nat
  | .index _ => 0
  | _ => 1

/-- `TensorViewOp`. -/
def view (v : Val) (subs : List VSub) : Val :=
  ⟨(subs.map VSub.dims).sum + (v.rank - subs.length), fun idx => v.elem (viewIndex subs idx)⟩

/-- The subscripts of the view (`/repo/lib/Codegen/Lowering/ComponentReferenceLowerer.cpp:115-144`). -/
def fullSubs (isFirst isLast : Bool) (rank : Nat) (subs : List VSub) : List VSub :=
  (if isFirst then subs else []) ++
  (if (!isFirst && isLast) || (isFirst && !isLast) then List.replicate (rank - subs.length) .all else []) ++
  (if !isFirst then subs else [])

/-- `ComponentReferenceLowerer::lowerSubscripts` (`/repo/lib/Codegen/Lowering/ComponentReferenceLowerer.cpp:97-153`). -/
def lowerSubscripts (v : Val) (subs : List Sub) (isFirst isLast : Bool) : Val :=
  if subs = [] then v else view v (fullSubs isFirst isLast v.rank (subs.map lowerSub))

/-- The access to a component (`/repo/lib/Codegen/Lowering/ComponentReferenceLowerer.cpp:65-84`): the dimensions of the component
come after those of the parent. -/
def component (v : Val) (rank : Nat) : Val :=
  ⟨v.rank + rank, fun idx => v.elem (idx.take v.rank) ++ [idx.drop v.rank]⟩

/-- The loop over the components after the first (`/repo/lib/Codegen/Lowering/ComponentReferenceLowerer.cpp:36-92`). -/
def lowerRest (v : Val) : List (Nat × List Sub) → Val
  | [] => v
  | c :: rest => lowerRest (lowerSubscripts (component v c.1) c.2 false rest.isEmpty) rest

/-- `ComponentReferenceLowerer::lower` (`/repo/lib/Codegen/Lowering/ComponentReferenceLowerer.cpp:11-95`), on the rank and the
subscripts of each component. -/
def lowerRef : List (Nat × List Sub) → Option Val
  | [] => none
  | c :: rest => some (lowerRest (lowerSubscripts ⟨c.1, fun idx => [idx]⟩ c.2 true rest.isEmpty) rest)

end Marco.CompRead
