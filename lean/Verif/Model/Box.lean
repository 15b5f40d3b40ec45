import Verif.Model.Point

/-!
# Model of `marco::modeling::MultidimensionalRange`
(`/repo/lib/Modeling/MultidimensionalRange.cpp`)

A box is the list of its ranges. The constructor asserts (non-empty list, every range valid)
are the predicate `Box.Valid`.
-/

namespace Marco
namespace Box

/-- lib/Modeling/MultidimensionalRange.cpp:5-8 together with Range.cpp:7: a well-formed box has
at least one dimension and valid ranges. -/
def Valid (b : Box) : Prop := b ≠ [] ∧ ∀ r ∈ b, r.Valid

instance (b : Box) : Decidable (Valid b) :=
  inferInstanceAs (Decidable (b ≠ [] ∧ ∀ r ∈ b, r.Valid))

/-- lib/Modeling/MultidimensionalRange.cpp:10-14, construction from a point. -/
def ofPoint (p : Point) : Box := p.map (fun x => ⟨x, x + 1⟩)

/-- lib/Modeling/MultidimensionalRange.cpp:25-29, element loop of `operator==(Point)`; it uses
`Range::operator!=(data_type)`. -/
def eqPointLoop : Box → Point → Bool
  | r :: rs, x :: xs => if r.neInt x then false else eqPointLoop rs xs
  | _, _ => true

/-- lib/Modeling/MultidimensionalRange.cpp:20-32, `operator==(const Point &)`. -/
def eqPoint (b : Box) (p : Point) : Bool :=
  if b.length != p.length then false else eqPointLoop b p

/-- lib/Modeling/MultidimensionalRange.cpp:49-51, `operator!=(const Point &)`. -/
def nePoint (b : Box) (p : Point) : Bool := !eqPoint b p

/-- lib/Modeling/MultidimensionalRange.cpp:40-44, element loop of `operator==(box)`. -/
def eqBoxLoop : Box → Box → Bool
  | r :: rs, s :: ss => if r.neRange s then false else eqBoxLoop rs ss
  | _, _ => true

/-- lib/Modeling/MultidimensionalRange.cpp:34-47, `operator==(const MultidimensionalRange &)`. -/
def eqBox (b c : Box) : Bool :=
  if b.length != c.length then false else eqBoxLoop b c

/-- lib/Modeling/MultidimensionalRange.cpp:87-95, `size`. -/
def size (b : Box) : Nat := b.foldl (fun acc r => acc * (r.e - r.b).toNat) 1

/-- lib/Modeling/MultidimensionalRange.cpp:105-111, element loop of `compare`. -/
def compareLoop : Box → Box → Int
  | r :: rs, s :: ss => if r.compare s != 0 then r.compare s else compareLoop rs ss
  | _, _ => 0

/-- lib/Modeling/MultidimensionalRange.cpp:97-112, `compare`. -/
def compare (b c : Box) : Int :=
  if b.length != c.length then (if b.length < c.length then -1 else 1) else compareLoop b c

/-- lib/Modeling/MultidimensionalRange.cpp:58-61, `operator<`. -/
def lt (b c : Box) : Bool := decide (compare b c < 0)

/-- lib/Modeling/MultidimensionalRange.cpp:63-66, `operator>`. -/
def gt (b c : Box) : Bool := decide (compare b c > 0)

/-- lib/Modeling/MultidimensionalRange.cpp:114-122, `contains(const Point &)`; `llvm::zip` stops
at the shorter sequence. -/
def containsPoint : Box → Point → Bool
  | r :: rs, x :: xs => if !r.containsInt x then false else containsPoint rs xs
  | _, _ => true

/-- lib/Modeling/MultidimensionalRange.cpp:124-135, `contains(box)` (equal ranks asserted). -/
def containsBox : Box → Box → Bool
  | r :: rs, s :: ss => if !r.containsRange s then false else containsBox rs ss
  | _, _ => true

/-- lib/Modeling/MultidimensionalRange.cpp:137-148, `overlaps` (equal ranks asserted). -/
def overlaps : Box → Box → Bool
  | r :: rs, s :: ss => if !r.overlaps s then false else overlaps rs ss
  | _, _ => true

/-- lib/Modeling/MultidimensionalRange.cpp:150-162, `anyDimensionOverlaps`. -/
def anyDimensionOverlaps : Box → Box → Bool
  | r :: rs, s :: ss => if r.overlaps s then true else anyDimensionOverlaps rs ss
  | _, _ => false

/-- lib/Modeling/MultidimensionalRange.cpp:164-174, `intersect` (overlap asserted). -/
def intersect (b c : Box) : Box := List.zipWith Range.intersect b c

/-- lib/Modeling/MultidimensionalRange.cpp:184-200, the loop of `canBeMerged`; `i` is the loop
counter, `found`/`dim` the two local variables. -/
def canBeMergedLoop : Box → Box → Nat → Bool → Nat → Bool × Nat
  | r :: rs, s :: ss, i, found, dim =>
    if r.neRange s then
      if r.canBeMerged s then
        if found then (false, 0) else canBeMergedLoop rs ss (i + 1) true i
      else (false, 0)
    else canBeMergedLoop rs ss (i + 1) found dim
  | _, _, _, found, dim => (found, dim)

/-- lib/Modeling/MultidimensionalRange.cpp:176-201, `canBeMerged`. -/
def canBeMerged (b c : Box) : Bool × Nat := canBeMergedLoop b c 0 false 0

/-- lib/Modeling/MultidimensionalRange.cpp:209-217, the loop of `merge` starting at dimension
`i`. -/
def mergeLoop : Box → Box → Nat → Nat → Box
  | r :: rs, s :: ss, i, dim =>
    (if i == dim then r.merge s else r) :: mergeLoop rs ss (i + 1) dim
  | _, _, _, _ => []

/-- lib/Modeling/MultidimensionalRange.cpp:203-220, `merge`. -/
def merge (b c : Box) (dim : Nat) : Box := mergeLoop b c 0 dim

/-- lib/Modeling/MultidimensionalRange.cpp:233-244, the dimension sweep of `subtract`.
`resultRanges` is `pre` (already intersected dimensions) followed by the untouched ones. -/
def subtractLoop : List Range → Box → Box → List Box
  | pre, x :: xs, y :: ys =>
    (x.subtract y).map (fun d => pre ++ d :: xs) ++
      subtractLoop (pre ++ [x.intersect y]) xs ys
  | _, _, _ => []

/-- lib/Modeling/MultidimensionalRange.cpp:222-248, `subtract` (equal ranks asserted). -/
def subtract (b c : Box) : List Box :=
  if !overlaps b c then [b] else subtractLoop [] b c

/-- lib/Modeling/MultidimensionalRange.cpp:270-281 and 295-307, `slice(BitVector)` /
`takeDimensions`. -/
def takeDims : Box → List Bool → Box
  | r :: rs, f :: fs => if f then r :: takeDims rs fs else takeDims rs fs
  | _, _ => []

/-- lib/Modeling/MultidimensionalRange.cpp:283-287 (and 259-268 `slice(n)`),
`takeFirstDimensions`. -/
def takeFirst (b : Box) (n : Nat) : Box := b.take n

/-- lib/Modeling/MultidimensionalRange.cpp:289-293, `takeLastDimensions`. -/
def takeLast (b : Box) (n : Nat) : Box := b.drop (b.length - n)

/-- lib/Modeling/MultidimensionalRange.cpp:309-313, `dropFirstDimensions`. -/
def dropFirst (b : Box) (n : Nat) : Box := b.drop n

/-- lib/Modeling/MultidimensionalRange.cpp:315-319, `dropLastDimensions`. -/
def dropLast (b : Box) (n : Nat) : Box := b.take (b.length - n)

/-- lib/Modeling/MultidimensionalRange.cpp:321-334, `prepend`. -/
def prepend (b c : Box) : Box := c ++ b

/-- lib/Modeling/MultidimensionalRange.cpp:336-349, `append`. -/
def append (b c : Box) : Box := b ++ c

/-! ### Point iterator -/

/-- lib/Modeling/MultidimensionalRange.cpp:351-366, the state of `Iterator`: the current value of
each dimension iterator and the `indices` vector (begin/end iterators are those of the box). -/
structure Iter where
  cur : List Int
  idx : List Int
deriving DecidableEq, Repr

/-- lib/Modeling/MultidimensionalRange.cpp:250-253, `begin()`. -/
def iterBegin (b : Box) : Iter := ⟨b.map Range.b, b.map Range.b⟩

/-- lib/Modeling/MultidimensionalRange.cpp:255-257, `end()`. -/
def iterEnd (b : Box) : Iter := ⟨b.map Range.e, b.map Range.e⟩

/-- lib/Modeling/MultidimensionalRange.cpp:396-406, `findIndex`: from the last dimension,
increment (Range.cpp:169-172, saturating) until a dimension does not reach its end. Returns the
position (if any) and the updated `currentIterators`. -/
def findIndex : Box → List Int → Option Nat × List Int
  | r :: rs, c :: cs =>
    match findIndex rs cs with
    | (some k, cs') => (some (k + 1), c :: cs')
    | (none, cs') =>
      let c' := min (c + 1) r.e
      if c' != r.e then (some 0, c' :: cs') else (none, c' :: cs')
  | _, _ => (none, [])

/-- lib/Modeling/MultidimensionalRange.cpp:393-420, `fetchNext`. -/
def fetchNext (b : Box) (st : Iter) : Iter :=
  match findIndex b st.cur with
  | (none, cur') => ⟨cur', st.idx⟩
  | (some pos, cur') =>
    let resets := (b.drop (pos + 1)).map Range.b
    ⟨cur'.take (pos + 1) ++ resets,
     st.idx.take pos ++ (cur'.drop pos).take 1 ++ resets⟩

/-- The C++ loop `for (it = begin(); it != end(); ++it) use(*it);` started in state `st`
terminates and the dereferenced values are the given list
(lib/Modeling/MultidimensionalRange.cpp:368-391: comparison of `currentIterators`,
dereference of `indices`). -/
inductive Emits (b : Box) : Iter → List Point → Prop
  | done {st : Iter} : st.cur = (iterEnd b).cur → Emits b st []
  | step {st : Iter} {l : List Point} : st.cur ≠ (iterEnd b).cur →
      Emits b (fetchNext b st) l → Emits b st (st.idx :: l)

end Box
end Marco
