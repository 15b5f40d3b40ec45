import Verif.Model.IndexSet

/-!
# Model of the functions created for the equations
(`/repo/lib/Dialect/BaseModelica/Transforms/EquationExplicitation.cpp` and
`/repo/lib/Codegen/Conversion/BaseModelicaToFunc/BaseModelicaToFunc.cpp`, lines 149-184)

An equation that has been made explicit becomes a function: a nest of loops over the box between the
bounds passed to it, the body of which assigns to the element on the left-hand side the value of the
right-hand side. It is called once for each range of the indices of the equation. How the equation is
made explicit is the subject of C47. An equation is given by the element it assigns at an index, the
elements it reads there, and its value; elements are any type.
-/

namespace Marco.EqFn

/-- `scheduling::Direction` (include/marco/Modeling/Scheduling.h:96). -/
inductive Dir where
  | any
  | forward
  | backward
  | unknown
  deriving DecidableEq, Repr

/-- The values of the induction variable of an `scf::ForOp` with step 1: the upper bound is not one
of them. -/
def forValues (lower upper : Int) : List Int :=
  (List.range (upper - lower).toNat).map fun (k : Nat) => lower + k

/-- EquationExplicitation.cpp:371-378: the values of the induction variables of the loops, in the
order of execution. -/
def loops : Box → List Point
  | [] => [[]]
  | r :: rs => (forValues r.b r.e).flatMap fun x => (loops rs).map (x :: ·)

/-- EquationExplicitation.cpp:380-399 for one induction variable (the assertion at 387 left out). -/
def shiftOne (d : Dir) (lower upper induction : Int) : Int :=
  if d = .any ∨ d = .forward then induction
  else
    let offset := induction - lower
    upper - offset

/-- EquationExplicitation.cpp:380-399, `shiftedInductions`. -/
def shift : List Dir → Box → Point → Point
  | d :: ds, r :: rs, x :: xs => shiftOne d r.b r.e x :: shift ds rs xs
  | _, _, _ => []

/-- EquationExplicitation.cpp:333-420, `createEquationFunction`, called with the bounds of a box: the
indices for which the body is executed, in order. `none`: "Incompatible schedule" (353-356). -/
def function (dirs : List Dir) (b : Box) : Option (List Point) :=
  if b.length = 0 then some [[]]
  else if dirs.length ≠ b.length then none
  else some ((loops b).map (shift dirs b))

/-- BaseModelicaToFunc.cpp:149-184, the lowering of the `EquationCallOp`: one call for each range of
the indices, with its begin and its end as bounds (168-174). -/
def call (dirs : List Dir) (ranges : List Box) : Option (List Point) :=
  if ranges.isEmpty then function dirs []
  else (ranges.mapM (function dirs)).map List.flatten

/-- EquationExplicitation.cpp:317-324. -/
def independentIndices (dirs : List Dir) : Bool := !dirs.isEmpty && dirs.all (· == .any)

/-- An explicit equation. -/
structure Equation (E V : Type) where
  target : Point → E
  reads : Point → List E
  value : (E → V) → Point → V

/-- EquationExplicitation.cpp:440-497: the execution of the body for some index. -/
def Equation.assign {E V : Type} [DecidableEq E] (q : Equation E V) (m : E → V) (i : Point) : E → V :=
  fun e => if e = q.target i then q.value m i else m e

/-- The execution of the body for some indices. -/
def Equation.run {E V : Type} [DecidableEq E] (q : Equation E V) (m : E → V) (l : List Point) : E → V :=
  l.foldl q.assign m

end Marco.EqFn
