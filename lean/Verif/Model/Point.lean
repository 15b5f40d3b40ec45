import Verif.Spec.Sets

/-!
# Model of `marco::modeling::Point` (`/repo/lib/Modeling/Point.cpp`)

A point is the list of its coordinates (`SmallVector<int64_t>`).
-/

namespace Marco
namespace Point

/-- lib/Modeling/Point.cpp:60-69, the element loop of `compare` (both vectors have the same
length when the loop is reached). -/
def compareLoop : Point → Point → Int
  | a :: as, b :: bs => if a < b then -1 else if a > b then 1 else compareLoop as bs
  | _, _ => 0

/-- lib/Modeling/Point.cpp:48-71, `compare`. -/
def compare (p q : Point) : Int :=
  if p.length < q.length then -1
  else if q.length < p.length then 1
  else compareLoop p q

/-- lib/Modeling/Point.cpp:40, `operator<`. -/
def lt (p q : Point) : Bool := decide (compare p q < 0)

/-- lib/Modeling/Point.cpp:24-29, the element loop of `operator==`. -/
def eqLoop : Point → Point → Bool
  | a :: as, b :: bs => if a != b then false else eqLoop as bs
  | _, _ => true

/-- lib/Modeling/Point.cpp:19-31, `operator==`. -/
def eqPoint (p q : Point) : Bool :=
  if p.length != q.length then false else eqLoop p q

/-- lib/Modeling/Point.cpp:73-77, `append`. -/
def append (p q : Point) : Point := p ++ q

/-- lib/Modeling/Point.cpp:79-81, `takeFront`. -/
def takeFront (p : Point) (n : Nat) : Point := p.take n

/-- lib/Modeling/Point.cpp:83-85, `takeBack`. -/
def takeBack (p : Point) (n : Nat) : Point := p.drop (p.length - n)

/-- lib/Modeling/Point.cpp:87-97, `slice`. -/
def slice : Point → List Bool → Point
  | x :: xs, f :: fs => if f then x :: slice xs fs else slice xs fs
  | _, _ => []

end Point
end Marco
