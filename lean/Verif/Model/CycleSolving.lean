import Mathlib.Data.Finset.Union
import Mathlib.Data.Finset.SDiff
import Mathlib.Data.Finset.Image
import Verif.Model.Substitution

/-!
# Model of the solution of cycles by substitution
(`/repo/lib/Dialect/BaseModelica/Transforms/SCCSolvingBySubstitution.cpp`, and the replacement of
accesses in `/repo/lib/Dialect/BaseModelica/IR/Ops.cpp`)

The sides of an equation are expression trees; a value used twice appears twice, and operations
with another number of operands than two are not distinguished from nested ones. The equations are
between scalars (equations between arrays have the rank differences of Ops.cpp:8344-8436, which are
not modelled), and without reductions, so that the induction variables at a path are those of the
equation. Index sets are finite sets of points with exact operations (C07 to C18); so are `map` and
`inverseMap` (C22 and C23 say when that is so). The stored ranges of a set, the explicit form of an
equation (C47) and the search for cycles (C37) are parameters.

The operations are identified by numbers. The failures of the verification and of the symbol tables,
the bound on the number of equations of an SCC (SCCSolvingBySubstitution.cpp:506-509: a larger SCC is
left as it is) and the division of the resulting equations into SCCs (`createSCCs`, the subject of
C37) are left out.
-/

namespace Marco.Subst
open Marco AccessFn

/-- The operations of a side of an equation: an access to a scalar variable or to an element of an
array, the value of an affine expression of the induction variables, a constant, an operation. -/
inductive Expr where
  | var (v : Nat) (subs : List DimAccess)
  | ind (e : AExpr)
  | cst (c : Int)
  | op (f : Nat) (a b : Expr)

/-- `EquationPath`: the side, and the operand to take at each operation. -/
structure Path where
  right : Bool
  steps : List Bool
deriving DecidableEq

/-- Ops.cpp:8242-8261, `getValueAtPath`, within a side. -/
def Expr.at : Expr → List Bool → Option Expr
  | e, [] => some e
  | .op _ a b, s :: ss => if s then b.at ss else a.at ss
  | _, _ :: _ => none

/-- `replaceAllUsesWith` for the value at the path (Ops.cpp:8588). -/
def Expr.put : Expr → List Bool → Expr → Expr
  | _, [], x => x
  | .op f a b, s :: ss, x => if s then .op f a (b.put ss x) else .op f (a.put ss x) b
  | e, _ :: _, _ => e

/-- The subscript, with the induction variables replaced. -/
def mapSubscript (ts : List AExpr) : DimAccess → DimAccess
  | .dim d => DimAccess.build (ts.getD d (.dim d))
  | .add a b => .add (mapSubscript ts a) (mapSubscript ts b)
  | .sub a b => .sub (mapSubscript ts a) (mapSubscript ts b)
  | .mul a b => .mul (mapSubscript ts a) (mapSubscript ts b)
  | .div a b => .div (mapSubscript ts a) (mapSubscript ts b)
  | a => a

/-- The clone of the operations of the replacement equation, with its induction variables mapped to
the materialised expressions (Ops.cpp:8571-8586). -/
def Expr.mapInds (ts : List AExpr) : Expr → Expr
  | .var v subs => .var v (subs.map (mapSubscript ts))
  | .ind e => .ind (e.subst ts)
  | .cst c => .cst c
  | .op f a b => .op f (a.mapInds ts) (b.mapInds ts)

/-- `EquationTemplateOp`: the number of induction variables and the two sides. -/
structure Template where
  inds : Nat
  lhs : Expr
  rhs : Expr

/-- Ops.cpp:8242-8261, `EquationTemplateOp::getValueAtPath`. -/
def Template.at (t : Template) (p : Path) : Option Expr :=
  if p.right then t.rhs.at p.steps else t.lhs.at p.steps

/-- The outcome of the replacement of an access within an equation template. -/
inductive Replaced where
  /-- No transformation: nothing is done, without an error (Ops.cpp:8478, 8487). -/
  | skipped
  /-- The induction variables can't be mapped (Ops.cpp:8572-8576). -/
  | failed
  | done (t : Template)

/-- Ops.cpp:8462-8590, the three `cloneWithReplacedVectorizedAccess`, but for the ranges: the clone of
the equation with the access at the path replaced by the right-hand side of the replacement equation,
whose left-hand side is the replacement access. -/
def replaceAccess (S : Simplifier) (t : Template) (p : Path) (x : Template) : Replaced :=
  match t.at p, x.lhs with
  | some (.var _ subs), .var _ ws =>
    match transformation S (AccessFn.build S t.inds subs) (AccessFn.build S x.inds ws) with
    | none => .skipped
    | some f =>
      if !f.isAffine || decide (f.affineMap.results.length < x.inds) then .failed
      else
        let v := x.rhs.mapInds (f.affineMap.results.take x.inds)
        .done (if p.right then { t with rhs := t.rhs.put p.steps v }
          else { t with lhs := t.lhs.put p.steps v })
  | _, _ => .failed

/-- `EquationInstanceOp`. The variable it is matched with (`match.name`) and the access to it are
carried by the clones; the matched indices are not modelled (C69). -/
structure Inst where
  id : Nat
  writes : Nat
  written : List DimAccess
  tmpl : Template
  indices : Finset Point

/-- Ops.cpp:10146-10203 and 8320-8460, `cloneWithReplacedAccess`: one equation for each stored range
of the given indices. Without given indices there is one equation, without indices; and if nothing
could be replaced, there is no equation, and no error either (Ops.cpp:8454-8457). -/
def cloneWithReplacedAccess (S : Simplifier) (rep : Finset Point → List (Finset Point)) (op : Inst)
    (given : Finset Point) (p : Path) (x : Template) : Option (List Inst) :=
  match replaceAccess S op.tmpl p x with
  | .failed => none
  | .skipped => if given = ∅ then some [] else none
  | .done t =>
    if given = ∅ then some [{ op with tmpl := t, indices := ∅ }]
    else some ((rep given).map fun r =>
      { op with tmpl := t, indices := if op.indices = ∅ then ∅ else r })

/-- SCCSolvingBySubstitution.cpp:21-28, `CyclicEquation`: what is used of it. -/
structure CyclicEq where
  eq : Inst
  indices : Finset Point
  read : Path

/-- The element accessed at an iteration: `getAccessFunction()` of a `VariableAccess`. -/
def element (subs : List DimAccess) (p : Point) : Option Point :=
  subs.mapM fun a => a.affineExpr.bind fun e => e.eval p

/-- `writeAccessFunction.map(writingEquationIndices)` (SCCSolvingBySubstitution.cpp:367-374), for an
equation with or without induction variables. There are no indices of a scalar variable. -/
def writtenBy (subs : List DimAccess) (inds : Nat) (s : Finset Point) : Finset Point :=
  if subs = [] then ∅
  else (if inds = 0 then {[]} else s).biUnion fun p => (element subs p).elim ∅ fun r => {r}

/-- SCCSolvingBySubstitution.cpp:376-386: all the indices if the variable has none, otherwise
`readAccessFunction.inverseMap(writtenVariableIndices, equationIndices)`. -/
def readingIndices (subs : List DimAccess) (written s : Finset Point) : Finset Point :=
  if written = ∅ then s else s.filter fun p => ∃ r ∈ element subs p, r ∈ written

/-- SCCSolvingBySubstitution.cpp:341-401: the replacement for one of the writing equations. -/
def substituteOne (S : Simplifier) (rep : Finset Point → List (Finset Point))
    (explicitate : Inst → Option Template) (c : CyclicEq) (w : Inst) : Option (List Inst) :=
  match explicitate w with
  | none => none
  | some x =>
    match x.lhs, c.eq.tmpl.at c.read with
    | .var _ ws, some (.var _ subs) =>
      let reading := readingIndices subs (writtenBy ws x.inds w.indices) c.indices
      cloneWithReplacedAccess S rep c.eq reading c.read x
    | _, _ => none

/-- SCCSolvingBySubstitution.cpp:329-402: the writing equations one after the other, until a
replacement fails. The equations made before the failure are kept. -/
def substituteAll (S : Simplifier) (rep : Finset Point → List (Finset Point))
    (explicitate : Inst → Option Template) (c : CyclicEq) : List Inst → List Inst × Bool
  | [] => ([], true)
  | w :: ws => match substituteOne S rep explicitate c w with
    | none => ([], false)
    | some l =>
      let (l', ok) := substituteAll S rep explicitate c ws
      (l ++ l', ok)

/-- SCCSolvingBySubstitution.cpp:283-417, the recursive `solveCycle`: the new equations, and whether
it succeeded. The writing equations are erased when they have been used. -/
def solveCycle (S : Simplifier) (rep : Finset Point → List (Finset Point))
    (explicitate : Inst → Option Template) : List CyclicEq → List Inst × Bool
  | [] => ([], false)
  | [c] => ([c.eq], true)
  | c :: cs =>
    let (ws, ok) := solveCycle S rep explicitate cs
    if ok then substituteAll S rep explicitate c ws else ([], false)

/-! ### The pass -/

/-- SCCSolvingBySubstitution.cpp:447-482, `isContainedInBiggerCycle`: `bigger` are the cycles that
precede. -/
def containedInBigger (bigger : List (List CyclicEq)) (cycle : List CyclicEq) : Bool :=
  let ids := (cycle.drop 1).map fun c => c.eq.id
  (bigger.takeWhile fun o => decide (cycle.length < o.length)).any fun o =>
    let others := (o.drop 1).map fun c => c.eq.id
    ids.all (others.contains ·) && !others.all (ids.contains ·)

/-- The state of the solution of an SCC: the operations inside it, `toBeErased`, `allNewEquations`
(SCCSolvingBySubstitution.cpp:516-520), and the next unused number. -/
structure State where
  ops : List Inst
  erased : List Nat
  made : List Nat
  next : Nat

/-- New operations: they get unused numbers. -/
def number (next : Nat) (l : List Inst) : List Inst :=
  l.mapIdx fun i op => { op with id := next + i }

/-- SCCSolvingBySubstitution.cpp:568-591: the clone of the first equation for the indices that are
not handled by the new equations (`none`: there are none). -/
def leftover (first : Inst) (new : List Inst) : Option Inst :=
  if first.indices = ∅ then none
  else
    let remaining := first.indices \ new.foldl (fun acc n => acc ∪ n.indices) ∅
    if remaining = ∅ then none else some { first with indices := remaining }

/-- SCCSolvingBySubstitution.cpp:537-601: the cycles are tried in order until one is solved. The
second component is the content of `currentEquations`. (The test for equations that can't be made
explicit, 550-561, has no effect: its `continue` is that of the inner loop.) -/
def tryCycles (S : Simplifier) (rep : Finset Point → List (Finset Point))
    (explicitate : Inst → Option Template) : List (List CyclicEq) → List (List CyclicEq) → State →
    State × List Inst
  | _, [], st => (st, [])
  | before, cycle :: rest, st =>
    if containedInBigger before cycle then
      tryCycles S rep explicitate (before ++ [cycle]) rest st
    else
      let (made, ok) := solveCycle S rep explicitate cycle
      let new := number st.next made
      let st' : State := { st with ops := st.ops ++ new, next := st.next + new.length }
      match ok, cycle with
      | true, c :: _ =>
        let clone := (leftover c.eq new).map fun op => { op with id := st'.next }
        ({ ops := st'.ops ++ clone.toList
           erased := st.erased ++ [c.eq.id]
           made := st.made ++ new.map Inst.id
           next := st'.next + 1 }, clone.toList)
      | _, _ => tryCycles S rep explicitate (before ++ [cycle]) rest st'

/-- SCCSolvingBySubstitution.cpp:603-616: the equations among which cycles are searched next. -/
def currentEquations (original : List Inst) (st : State) (clone : List Inst) : List Inst :=
  clone ++ (original.filter fun op => !st.erased.contains op.id) ++
    st.ops.filter fun op => st.made.contains op.id && !st.erased.contains op.id

/-- SCCSolvingBySubstitution.cpp:533-622: the iterations; the cycles that remain at the end. -/
def iterate (S : Simplifier) (rep : Finset Point → List (Finset Point))
    (explicitate : Inst → Option Template) (search : List Inst → List (List CyclicEq))
    (original : List Inst) : Nat → List (List CyclicEq) → State → List (List CyclicEq) × State
  | 0, cycles, st => (cycles, st)
  | k + 1, cycles, st =>
    if cycles.isEmpty then (cycles, st)
    else
      let (st', clone) := tryCycles S rep explicitate [] cycles st
      iterate S rep explicitate search original k (search (currentEquations original st' clone)) st'

/-- SCCSolvingBySubstitution.cpp:498-653, `solveCycle` of the pass, for the equations of an SCC:
whether all the cycles were solved, and the equations that the SCC (or the SCCs that take its place)
consist of. -/
def solveSCC (S : Simplifier) (rep : Finset Point → List (Finset Point))
    (explicitate : Inst → Option Template) (search : List Inst → List (List CyclicEq))
    (maxIterations : Nat) (original : List Inst) (next : Nat) : Bool × List Inst :=
  let (cycles, st) := iterate S rep explicitate search original maxIterations (search original)
    ⟨original, [], [], next⟩
  if cycles.isEmpty then (true, st.ops.filter fun op => !st.erased.contains op.id)
  else (false, st.ops.filter fun op => !st.made.contains op.id)

end Marco.Subst
