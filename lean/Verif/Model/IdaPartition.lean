/-!
# Model of the choice of the variables and equations for IDA
(`/repo/lib/Dialect/BaseModelica/Transforms/IDA.cpp`, `IDAPass::solveMainModel` and what it calls)

The variables and the equations are numbered. The equations are in strongly connected components (`SCCOp`); each is matched
with a variable. Whether an equation can be made explicit (`cloneAndExplicitate`) is given by a function; the clones are
erased again. The sets of components are visited in any order (`DenseSet`), which is a parameter.
-/

namespace Marco.Ida

/-- An `EquationInstanceOp` and the variable it is matched with (`match.name`). -/
structure Eqn where
  id : Nat
  writes : Nat
  deriving DecidableEq, Repr

/-- The variables and equations of an `IDAInstance`: IDA.cpp:176-207. -/
structure Inst where
  alg : List Nat := []
  states : List Nat := []
  ders : List Nat := []
  eqs : List Eqn := []
  deriving DecidableEq, Repr

/-- `hasVariable`: IDA.cpp:223-228, 257-270. -/
def Inst.has (i : Inst) (v : Nat) : Bool := i.alg.contains v || i.states.contains v || i.ders.contains v

/-- `addAlgebraicVariable`: IDA.cpp:230-237. -/
def Inst.addAlg (i : Inst) (v : Nat) : Inst := if i.has v then i else { i with alg := i.alg ++ [v] }

/-- `addStateVariable`: IDA.cpp:239-246. -/
def Inst.addState (i : Inst) (v : Nat) : Inst := if i.has v then i else { i with states := i.states ++ [v] }

/-- `addDerivativeVariable`: IDA.cpp:248-255. -/
def Inst.addDer (i : Inst) (v : Nat) : Inst := if i.has v then i else { i with ders := i.ders ++ [v] }

/-- `addEquation`: IDA.cpp:277-280 (a `SetVector`). -/
def Inst.addEq (i : Inst) (e : Eqn) : Inst := if i.eqs.contains e then i else { i with eqs := i.eqs ++ [e] }

/-- The model: its variables in order, the map of the derivatives in both directions, the variables that are read only, the
components, the equations that can be made explicit. -/
structure Model where
  vars : List Nat
  der : Nat → Option Nat
  derived : Nat → Option Nat
  readOnly : Nat → Bool
  sccs : List (List Eqn)
  explicit : Eqn → Bool

/-- `addMainModelEquation`: IDA.cpp:2187-2220. -/
def addEquation (m : Model) (i : Inst) (e : Eqn) : Inst :=
  let i := i.addEq e
  if (m.derived e.writes).isSome then i.addDer e.writes
  else if (m.der e.writes).isSome then i.addState e.writes
  else i.addAlg e.writes

/-- `addMainModelSCC`: IDA.cpp:2172-2185. -/
def addScc (m : Model) (i : Inst) (s : List Eqn) : Inst := s.foldl (addEquation m) i

/-- The states and their derivatives: IDA.cpp:1966-1985. -/
def addDynamic (m : Model) (i : Inst) (v : Nat) : Inst :=
  match m.der v with
  | some d => (i.addState v).addDer d
  | none => i

/-- The equations that write to variables of IDA: IDA.cpp:1987-2006. -/
def addDirect (i : Inst) (e : Eqn) : Inst := if i.has e.writes then i.addEq e else i

/-- The components with more than one equation: IDA.cpp:2017-2039. -/
def cycles (m : Model) : List (List Eqn) := m.sccs.filter fun s => decide (1 < s.length)

/-- The components with an equation that can not be made explicit: IDA.cpp:2041-2068. -/
def implicits (m : Model) : List (List Eqn) := m.sccs.filter fun s => match s with
  | [e] => !m.explicit e
  | _ => false

/-- All the variables that are not read only: IDA.cpp:2094-2111. -/
def addAny (m : Model) (i : Inst) (v : Nat) : Inst :=
  if (m.der v).isSome then i.addState v
  else if (m.derived v).isSome then i.addDer v
  else if m.readOnly v then i
  else i.addAlg v

/-- The variables and equations chosen first: IDA.cpp:1960-2112. -/
def start (m : Model) (order : List (List Eqn) → List (List Eqn)) (reduced : Bool) : Inst :=
  if reduced then
    let i := m.vars.foldl (addDynamic m) {}
    let i := m.sccs.flatten.foldl addDirect i
    let i := (order (cycles m)).foldl (addScc m) i
    (order (implicits m)).foldl (addScc m) i
  else m.vars.foldl (addAny m) {}

/-- One visit of the components: IDA.cpp:2241-2267. The components are identified by their positions. -/
def sweep (m : Model) : List (Nat × List Eqn) → Inst → List Nat → Inst × List Nat × Bool
  | [], i, ext => (i, ext, false)
  | (k, s) :: l, i, ext =>
    if ext.contains k then sweep m l i ext
    else if s.any fun e => i.has e.writes then
      let (i', ext', _) := sweep m l (addScc m i s) (k :: ext)
      (i', ext', true)
    else sweep m l i ext

/-- The visits, at most `n`: IDA.cpp:2236-2268. -/
def close (m : Model) : Nat → Inst → List Nat → Inst × List Nat
  | 0, i, ext => (i, ext)
  | n + 1, i, ext =>
    match sweep m (m.sccs.zipIdx.map fun p => (p.2, p.1)) i ext with
    | (i', ext', true) => close m n i' ext'
    | (i', ext', false) => (i', ext')

/-- `solveMainModel` until line 2121: the instance and the components given to IDA; each visit but the last adds a component. -/
def solve (m : Model) (order : List (List Eqn) → List (List Eqn)) (reduced : Bool) : Inst × List Nat :=
  close m (m.sccs.length + 1) (start m order reduced) []

/-- The components handled by the code generated: IDA.cpp:2123-2130. -/
def internal (m : Model) (ext : List Nat) : List (List Eqn) :=
  (m.sccs.zipIdx.filter fun p => !ext.contains p.2).map (·.1)

end Marco.Ida
