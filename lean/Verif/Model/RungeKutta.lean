import Verif.Model.ButcherTableau
import Verif.Model.Point
import Mathlib.Data.Rat.Cast.Defs
import Mathlib.Algebra.Field.Defs
import Mathlib.Order.Lattice

/-!
# Model of the step of the Runge-Kutta methods
(`/repo/lib/Dialect/BaseModelica/Transforms/RungeKutta.cpp`, lines 605-2103)

The pass replaces the equations of the derivatives by equations for the slopes of the stages, for
the next values of the states and of the derivatives, and for the error estimate. Here the model has
equations that are already explicit (`cloneAndExplicitate`, whose failure is not modelled), each with
its iteration space, the written access and a right-hand side. The generated equations are modelled
by the values that they compute from a memory; the memory maps the elements of the variables to
numbers of a field (no rounding). The order in which the generated equations are computed is that of
a later pass; it sees only the accesses in the equations, not those in the called functions.
-/

namespace Marco.RK

/-- The variables: those of the model, and those that the pass declares
(RungeKutta.cpp:774-815): the next values, the slopes of the stages (from 1), the errors. The names
of the code are made unique, so that they are kept apart here. -/
inductive Name where
  | model (s : String)
  | fut (s : String)
  | slope (s : String) (i : ℕ)
  | err (s : String)
  deriving DecidableEq, Repr

/-- Right-hand sides: `TimeOp`, `VariableGetOp` with the subscripts as functions of the induction
variables, other operations. -/
inductive Ex (K : Type) where
  | const (k : K)
  | time
  | get (v : String) (idx : Point → Point)
  | un (f : K → K) (a : Ex K)
  | bin (f : K → K → K) (a b : Ex K)

namespace Ex
variable {K : Type}

/-- The value, with the values of the variables, the time and the induction variables. -/
def eval (ρ : String → Point → K) (t : K) (p : Point) : Ex K → K
  | const k => k
  | time => t
  | get v idx => ρ v (idx p)
  | un f a => f (eval ρ t p a)
  | bin f a b => f (eval ρ t p a) (eval ρ t p b)

/-- A `TimeOp` occurs. -/
def usesTime : Ex K → Bool
  | const _ => false
  | time => true
  | get _ _ => false
  | un _ a => a.usesTime
  | bin _ a b => a.usesTime || b.usesTime

/-- The accesses. -/
def reads : Ex K → List (String × (Point → Point))
  | const _ => []
  | time => []
  | get v idx => [(v, idx)]
  | un _ a => a.reads
  | bin _ a b => a.reads ++ b.reads

end Ex

/-- `EquationInstanceOp`, explicit: the matched variable, the iteration space (one empty point for
a scalar equation), the written access, the right-hand side. -/
structure Equation (K : Type) where
  matched : String
  indices : List Point
  access : Point → Point
  rhs : Ex K

/-- `SCCOp` with `getCycle`. -/
structure Scc (K : Type) where
  equations : List (Equation K)
  cycle : Bool

/-- `ModelOp`: variables with their indices, `DerivativesMap` (state, derivative), main equations. -/
structure Model (K : Type) where
  vars : List (String × List Point)
  derivatives : List (String × String)
  sccs : List (Scc K)

namespace Model
variable {K : Type} (m : Model K)

/-- DerivativesMap.cpp:397-406. -/
def getDerivative (v : String) : Option String :=
  (m.derivatives.find? (·.1 == v)).map (·.2)

/-- `DerivativesMap::getDerivedVariable`, the inverse map (DerivativesMap.cpp:409-412). -/
def getDerivedVariable (d : String) : Option String :=
  (m.derivatives.find? (·.2 == d)).map (·.1)

/-- RungeKutta.cpp:670-681. -/
def states : List String :=
  (m.vars.map (·.1)).filter fun v => (m.getDerivative v).isSome

/-- The keys of `futureVars`: the states and their derivatives (RungeKutta.cpp:826-844). -/
def hasFuture (v : String) : Bool :=
  m.states.any fun s => s == v || m.getDerivative s == some v

/-- RungeKutta.cpp:700-707. -/
def involves (c : Scc K) : Bool :=
  c.equations.any fun e => (m.getDerivedVariable e.matched).isSome

/-- RungeKutta.cpp:683-723: `none` if a cycle involves a derivative. -/
def derMatched : Option (List (Scc K)) :=
  if m.sccs.any fun c => m.involves c && c.cycle then none
  else some (m.sccs.filter m.involves)

/-- RungeKutta.cpp:861-903: the equations whose functions are stored for the state. The order, that
of a `DenseSet`, is taken to be that of the equations. -/
def functionsOf (cs : List (Scc K)) (s : String) : List (Equation K) :=
  (cs.flatMap (·.equations)).filter fun e => m.getDerivedVariable e.matched == some s

end Model

/-- The memory. -/
abbrev Env (K : Type) := Name → Point → K

/-- One element of an array is replaced. -/
def update {K : Type} (a : Point → K) (q : Point) (x : K) : Point → K :=
  fun r => if r = q then x else a r

variable {K : Type} [Field K]

/-- RungeKutta.cpp:1117-1150, `createSlopeSum`. -/
def slopeSum (tab : Tableau) (σ : Env K) (s : String) (i : ℕ) (q : Point) : K :=
  (List.range tab.columns).foldl (fun sum j =>
    if tab.getCoefficient i (j + 1) = 0 then sum
    else sum + (tab.getCoefficient i (j + 1) : K) * σ (.slope s (j + 1)) q) 0

/-- RungeKutta.cpp:1288-1320, `createFutureValueSum`. -/
def futureSum (tab : Tableau) (σ : Env K) (s : String) (q : Point) : K :=
  (List.range tab.columns).foldl (fun sum j =>
    if tab.getWeight (j + 1) = 0 then sum
    else sum + (tab.getWeight (j + 1) : K) * σ (.slope s (j + 1)) q) 0

/-- RungeKutta.cpp:1418-1453, `createErrorSum`. -/
def errorSum (tab : Tableau) (σ : Env K) (s : String) (q : Point) : K :=
  (List.range tab.columns).foldl (fun sum j =>
    if tab.getWeight (j + 1) - tab.getAdaptiveWeight (j + 1) = 0 then sum
    else sum + ((tab.getWeight (j + 1) - tab.getAdaptiveWeight (j + 1) : ℚ) : K) *
      σ (.slope s (j + 1)) q) 0

/-- A generated equation: the written variable, iteration space and access, the value from the
memory, the time, the step and the induction variables; and the elements that are read as the later
passes see it (`none`: the whole array). -/
structure Gen (K : Type) where
  target : Name
  indices : List Point
  access : Point → Point
  value : Env K → K → K → Point → K
  reads : List (Name × Option (Point → Point))

/-- RungeKutta.cpp:1052-1072: the variables in the function for the derivative of the state `s`,
which has the state as parameter. -/
def functionLookup (m : Model K) (s : String) (σ : Env K) (own : Point → K) (v : String) :
    Point → K :=
  if v == s then own
  else if m.hasFuture v then σ (.fut v)
  else σ (.model v)

/-- RungeKutta.cpp:1152-1262, `createSlopeEquation`, with the call of the function
(906-1081). -/
def slopeGen (m : Model K) (tab : Tableau) (s : String) (e : Equation K) (i : ℕ) : Gen K where
  target := .slope s i
  indices := e.indices
  access := e.access
  value σ t h p :=
    let q := e.access p
    let time := if tab.getNode i ≠ 0 then t + (tab.getNode i : K) * h else t
    let own := if tab.hasNonZeroOrderCoefficients i then
        update (σ (.model s)) q (σ (.model s) q + h * slopeSum tab σ s i q)
      else σ (.model s)
    e.rhs.eval (functionLookup m s σ own) time p
  reads := (.model s, none) ::
    ((List.range tab.columns).filter fun j => tab.getCoefficient i (j + 1) ≠ 0).map fun j =>
      (.slope s (j + 1), some e.access)

/-- RungeKutta.cpp:1322-1394, `createFutureStateValueEquation`. -/
def futureGen (tab : Tableau) (s : String) (e : Equation K) : Gen K where
  target := .fut s
  indices := e.indices
  access := e.access
  value σ _ h p := σ (.model s) (e.access p) + h * futureSum tab σ s (e.access p)
  reads := (.model s, some e.access) ::
    ((List.range tab.columns).filter fun j => tab.getWeight (j + 1) ≠ 0).map fun j =>
      (.slope s (j + 1), some e.access)

/-- The name of the next value if there is one, otherwise of the variable (RungeKutta.cpp:1738-1747,
1753-1759). -/
def futureName (m : Model K) (v : String) : Name :=
  if m.hasFuture v then .fut v else .model v

/-- RungeKutta.cpp:1694-1759: the cloned equation of a derivative, for the next values. With a
`TimeOp` it is not valid, see `invalid`. -/
def clonedGen (m : Model K) (e : Equation K) : Gen K where
  target := futureName m e.matched
  indices := e.indices
  access := e.access
  value σ t h p := e.rhs.eval (fun v => σ (futureName m v)) (t + h) p
  reads := e.rhs.reads.map fun r => (futureName m r.1, some r.2)

/-- The generated IR is not valid. (1) `replaceAllUsesWith` (RungeKutta.cpp:1735) replaces the time
also in the sum of time and step that it is replaced with, so that this operation is its own operand,
which does not dominate itself. (2) The function for the derivative has the parameters `time`, the
name of the state, `ind0`, `ind1`, …, and the result `result` (933-968), which are not made unique. -/
def invalid (s : String) (e : Equation K) : Bool :=
  e.rhs.usesTime || s == "time" || s == "result" ||
    e.indices.any fun p => (List.range p.length).any fun i => s == "ind" ++ toString i

/-- Why there is no step. -/
inductive StepError where
  | cycle
  | noFunction
  | invalidIR
  deriving DecidableEq, Repr

/-- RungeKutta.cpp:1642-1761: the equations of the schedule of `tryStep`. For each state the
equations of the slopes stage by stage, those of the next value, and the cloned equations of all the
derivatives. -/
def tryStep (m : Model K) (tab : Tableau) : Except StepError (List (Gen K)) :=
  match m.derMatched with
  | none => .error .cycle
  | some cs =>
    if m.states.any fun s => (m.functionsOf cs s).isEmpty then .error .noFunction
    else if m.states.any fun s => (m.functionsOf cs s).any (invalid s) then .error .invalidIR
    else .ok (m.states.flatMap fun s =>
      ((List.range tab.rows).flatMap fun i =>
        (m.functionsOf cs s).map fun e => slopeGen m tab s e (i + 1)) ++
      (m.functionsOf cs s).map (futureGen tab s) ++
      (cs.flatMap (·.equations)).map (clonedGen m))

/-- RungeKutta.cpp:1455-1514, `createErrorEquation`. -/
def errorGen (tab : Tableau) (s : String) (e : Equation K) : Gen K where
  target := .err s
  indices := e.indices
  access := e.access
  value σ _ h p := h * errorSum tab σ s (e.access p)
  reads := ((List.range tab.columns).filter fun j =>
      tab.getWeight (j + 1) - tab.getAdaptiveWeight (j + 1) ≠ 0).map fun j =>
    (.slope s (j + 1), some e.access)

/-- RungeKutta.cpp:1836-1855: the equations of the schedule of `estimateError`, for a method with
error estimate. -/
def errorGens (m : Model K) (tab : Tableau) : List (Gen K) :=
  match m.derMatched with
  | none => []
  | some cs => m.states.flatMap fun s => (m.functionsOf cs s).map (errorGen tab s)

/-- RungeKutta.cpp:1868-1884: the maximum so far and that of the errors of a state. The maximum of a
tensor is that of its elements. -/
def maxError [Lattice K] (m : Model K) (σ : Env K) (error : K) (s : String) : K :=
  match m.vars.find? (·.1 == s) with
  | some (_, q :: qs) => error ⊔ (qs.map (σ (.err s))).foldl (· ⊔ ·) (σ (.err s) q)
  | _ => error

/-- RungeKutta.cpp:1861-1888: the result of `estimateError` when its schedule has been run. -/
def estimateError [Lattice K] (m : Model K) (tab : Tableau) (σ : Env K) : K :=
  if !tab.isAdaptive then 0 else m.states.foldl (maxError m σ) 0

/-- RungeKutta.cpp:1536-1601, 1936-1954: the equations of the schedule of `acceptStep`. -/
def acceptGens (m : Model K) : List (Gen K) :=
  (m.vars.filter fun v => m.hasFuture v.1).map fun v =>
    { target := .model v.1, indices := v.2, access := id
      value := fun σ _ _ p => σ (.fut v.1) p
      reads := [(.fut v.1, some id)] }

/-- RungeKutta.cpp:1965-2004 and 756-759: the SCCs of the schedule of `updateNonStateVariables`. All
are moved to the schedule if some is matched with a derivative, and then these are erased. -/
def nonStateSchedule (m : Model K) : Except StepError (List (Scc K)) :=
  match m.derMatched with
  | none => .error .cycle
  | some cs => if cs.isEmpty then .ok [] else .ok (m.sccs.filter fun c => !m.involves c)

/-- One equation is computed at one point. -/
def Gen.run (t h : K) (σ : Env K) (w : Gen K × Point) : Env K := fun n r =>
  if n = w.1.target ∧ r = w.1.access w.2 then w.1.value σ t h w.2 else σ n r

/-- Equations are computed one after the other. -/
def exec (t h : K) (σ : Env K) (l : List (Gen K × Point)) : Env K := l.foldl (Gen.run t h) σ

end Marco.RK
