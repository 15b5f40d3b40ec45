import Mathlib.Order.Basic
import Mathlib.Tactic.Linarith
import Mathlib.Tactic.Tauto

/-!
# Model of `marco::modeling::Range`

`/repo/lib/Modeling/Range.cpp`, `/repo/include/marco/Modeling/Range.h`.

A `Range` is a half open interval of `int64_t`. Simplification: the bounds are
unbounded integers (no wrap-around is modelled).
-/

namespace Marco

/-- lib/Modeling/Range.cpp:5-8 (fields `begin_`, `end_`; the constructor assertion is the
separate predicate `Range.Valid`). -/
structure Range where
  b : Int
  e : Int
deriving DecidableEq, Repr

namespace Range

/-- lib/Modeling/Range.cpp:7, the assertion `begin < end` of the constructor. -/
def Valid (r : Range) : Prop := r.b < r.e

instance (r : Range) : Decidable r.Valid := inferInstanceAs (Decidable (r.b < r.e))

/-- lib/Modeling/Range.cpp:14-16, `operator==(data_type)`. -/
def eqInt (r : Range) (x : Int) : Bool := r.b == x && r.e == x + 1

/-- lib/Modeling/Range.cpp:18-20, `operator==(const Range &)`. -/
def eqRange (r s : Range) : Bool := r.b == s.b && r.e == s.e

/-- lib/Modeling/Range.cpp:22-24, `operator!=(data_type)` (note the conjunction). -/
def neInt (r : Range) (x : Int) : Bool := r.b != x && r.e != x + 1

/-- lib/Modeling/Range.cpp:26-28, `operator!=(const Range &)`. -/
def neRange (r s : Range) : Bool := r.b != s.b || r.e != s.e

/-- lib/Modeling/Range.cpp:30-36, `operator<`. -/
def lt (r s : Range) : Bool :=
  if r.b == s.b then decide (r.e < s.e) else decide (r.b < s.b)

/-- lib/Modeling/Range.cpp:38-44, `operator>`. -/
def gt (r s : Range) : Bool :=
  if r.b == s.b then decide (r.e > s.e) else decide (r.b > s.b)

/-- lib/Modeling/Range.cpp:50, `size`. The result is a `size_t`; on valid ranges the
difference is positive, elsewhere the cast is truncated to zero here. -/
def size (r : Range) : Nat := (r.e - r.b).toNat

/-- lib/Modeling/Range.cpp:52-70, `compare`. -/
def compare (r s : Range) : Int :=
  if r.b == s.b then
    if r.e == s.e then 0
    else if r.e < s.e then -1
    else 1
  else if r.b < s.b then -1
  else 1

/-- lib/Modeling/Range.cpp:72-74, `contains(data_type)`. -/
def containsInt (r : Range) (x : Int) : Bool := decide (x ≥ r.b) && decide (x < r.e)

/-- lib/Modeling/Range.cpp:76-78, `contains(const Range &)`. -/
def containsRange (r s : Range) : Bool := decide (r.b ≤ s.b) && decide (r.e ≥ s.e)

/-- lib/Modeling/Range.cpp:80-83, `overlaps`. -/
def overlaps (r s : Range) : Bool := decide (r.b ≤ s.e - 1) && decide (r.e - 1 ≥ s.b)

/-- lib/Modeling/Range.cpp:85-101, `intersect` (precondition: `overlaps`). -/
def intersect (r s : Range) : Range :=
  if r.containsRange s then s
  else if s.containsRange r then r
  else if r.b ≤ s.b then ⟨s.b, r.e⟩
  else ⟨r.b, s.e⟩

/-- lib/Modeling/Range.cpp:103-106, `canBeMerged`. -/
def canBeMerged (r s : Range) : Bool := r.b == s.e || r.e == s.b || r.overlaps s

/-- lib/Modeling/Range.cpp:108-122, `merge` (precondition: `canBeMerged`). -/
def merge (r s : Range) : Range :=
  if r.overlaps s then ⟨min r.b s.b, max r.e s.e⟩
  else if r.b == s.e then ⟨s.b, r.e⟩
  else ⟨r.b, s.e⟩

/-- lib/Modeling/Range.cpp:124-146, `subtract`. -/
def subtract (r s : Range) : List Range :=
  if !r.overlaps s then [r]
  else if r.containsRange s then
    (if r.b != s.b then [⟨r.b, s.b⟩] else []) ++ (if r.e != s.e then [⟨s.e, r.e⟩] else [])
  else if !s.containsRange r then
    if r.b ≤ s.b then [⟨r.b, s.b⟩] else [⟨s.e, r.e⟩]
  else []

end Range

end Marco
