import Verif.Model.AccessFunction

/-!
# Model of the choice of the iteration directions
(`/repo/include/marco/Modeling/Scheduling.h`)

The SCC is the single-equation case of `schedule`; the order of the SCCs and of the scalar
equations is in `Verif/Model/DependencyGraph.lean`.
-/

namespace Marco

/-- Scheduling.h:59, `DirectionPossibility`. -/
inductive DirP
  | any
  | forward
  | backward
  | scalar
deriving DecidableEq, Repr

namespace Scheduling
open AccessFn

/-- Scheduling.h:478-501, `mergeDirectionPossibilities(lhs, rhs)`. -/
def merge (l r : DirP) : DirP :=
  if l = .scalar || r = .scalar then .scalar
  else if l = .any then r
  else if r = .any then l
  else if l ≠ r then .scalar
  else l

/-- Scheduling.h:468-476, `mergeDirectionPossibilities(result, newDirections)`; the assertion
asks for equal lengths. -/
def mergeAll (l r : List DirP) : List DirP := List.zipWith merge l r

/-- lib/Modeling/AccessFunctionRotoTranslation.cpp:278-292, `isIdentityLike`: result number `i`
(counted from `i`) uses dimension `i`. -/
def identityLike : Nat → List AExpr → Bool
  | _, [] => true
  | i, e :: es => match inductionVar e with
    | none => false
    | some d => d == i && identityLike (i + 1) es

/-- Scheduling.h:424-431: direction required by an offset. -/
def offsetDir (o : Int) : DirP :=
  if o = 0 then .any else if o > 0 then .backward else .forward

/-- Scheduling.h:439-450, one read access: rotation of the directions of the relative access by
means of the inverse of the written access. Outer `none`: out of bounds access of line 449; inner
`none`: `return false` of line 446. (`rotatedAccessDirections` has as many elements as the results
of the inverse, which has the shape of an invertible access.) -/
def rotate (acc : List DirP) : List AExpr → Option (Option (List DirP))
  | [] => some (some [])
  | e :: es => match inductionVar e with
    | none => some none
    | some d => do
      let x ← acc[d]?
      let r ← rotate acc es
      some (r.map (x :: ·))

/-- Scheduling.h:402-464, the loop over the read accesses, where `g` is the inverse of the written
access and `gm` its affine map. -/
def readLoop (S : Simplifier) (g : AccessFn) (gm : AffineMap) :
    List AccessFn → List DirP → Option (Option (List DirP))
  | [], dirs => some (some dirs)
  | r :: rs, dirs => match g.combine S r with
    | .roto m =>
      if !identityLike 0 m.results then some none
      else do
        let offs ← m.results.mapM offset
        match ← rotate (offs.map offsetDir) gm.results with
        | none => some none
        | some rot =>
          let dirs := if dirs.isEmpty then rot else mergeAll dirs rot
          if dirs.all (· == .scalar) then some none else readLoop S g gm rs dirs
    | _ => some none

/-- Scheduling.h:384-466, `getSchedulingDirections` for an offset/permutation write (inner
`none`: `return false`). -/
def directionsRoto (S : Simplifier) (w : AffineMap) (reads : List AccessFn) :
    Option (Option (List DirP)) :=
  match (AccessFn.roto w).inverse S with
  | some (.roto gm) => readLoop S (.roto gm) gm reads []
  | _ => some none

/-- Scheduling.h:368-382, `getSchedulingDirections(directions, writeAccess, readAccesses)`. -/
def directionsReads (S : Simplifier) (w : AccessFn) (reads : List AccessFn) :
    Option (List DirP) :=
  match w with
  | .roto m => (directionsRoto S m reads).map fun o =>
      o.getD (List.replicate m.dims .scalar)
  | w => some (List.replicate w.dims .scalar)

/-- Scheduling.h:355-366, `getAccessWithProperty` with the preference of line 315. -/
def preferred : List (Nat × AccessFn) → Option (Nat × AccessFn)
  | [] => none
  | a :: as => some (((a :: as).find? fun x => x.2.isInvertible).getD a)

/-- Scheduling.h:325-345: the accesses reading the written variable, and whose indices overlap
the written ones. -/
def overlapping (v : Nat) (s written : IndexSet) : List (Nat × AccessFn) → Option (List AccessFn)
  | [] => some []
  | (x, f) :: rs =>
    if x ≠ v then overlapping v s written rs
    else do
      let t ← f.mapSet s
      let l ← overlapping v s written rs
      some (if t.overlapsSet written then f :: l else l)

/-- Scheduling.h:293-353, `getSchedulingDirections(scc)`: an equation of the given rank and
iteration indices, with its written and read (variable, access) pairs. `none`: undefined
behaviour. -/
def directions (S : Simplifier) (rank : Nat) (s : IndexSet) (writes reads : List (Nat × AccessFn)) :
    Option (List DirP) :=
  match preferred writes with
  | none => some (List.replicate rank .any)
  | some (v, w) => do
    let written ← w.mapSet s
    let rs ← overlapping v s written reads
    if rs.isEmpty then some (List.replicate rank .any) else directionsReads S w rs

/-- Scheduling.h:203-236: the equation is scheduled as a loop nest with the given directions, or
(`none`) as scalar equations. -/
def scheduleAsRange (dirs : List DirP) : Option (List DirP) :=
  if dirs.all (· != .scalar) then some dirs else none

end Scheduling
end Marco
