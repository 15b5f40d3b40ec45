import Verif.Model.MatchedAccesses
import Verif.Model.Cycles

/-!
# Model of the pass that divides the equations into strongly connected components
(`/repo/lib/Dialect/BaseModelica/Transforms/SCCDetection.cpp`, lines 106-218, with the traits of
`Modeling/EquationBridge.cpp`, lines 259-335)

The equations are given to the dependency graph (`Verif/Model/Cycles.lean`, C37, C38, C54). For each component that it
finds, the instances are cloned with the indices of the component.

Simplified: the models of the components are lists; the analysis of the accesses doesn't fail.
-/

namespace Marco.MatchPass

/-- EquationBridge.cpp:7-25 and 326-335, an access as it is given to the graph; `vid` numbers the variables. -/
def toAcc (vid : String → Nat) (inductions : Nat) (a : Acc) : Cycles.Acc := ⟨vid a.var, fun p => {conv inductions a p}⟩

/-- EquationBridge.cpp:187-209 and 270-317, an equation of the graph: its indices, the writes, and the reads. -/
def toEqn {P : Type} (vid : String → Nat) (accs : List Acc) (e : Inst P) : Cycles.Eqn where
  it := mask e.indices
  writes := (writeAccesses accs e).map (toAcc vid e.inductions)
  reads := (readAccesses accs e).map (toAcc vid e.inductions)

/-- SCCDetection.cpp:142-165: the equations of the graph, numbered from 0. -/
def toEqns {P : Type} (vid : String → Nat) (accs : Nat → List Acc) (es : List (Inst P)) (i : Nat) : Cycles.Eqn :=
  match es[i]? with
  | some e => toEqn vid (accs e.template) e
  | none => ⟨∅, [], []⟩

/-- Ops.cpp:10015-10056, `EquationInstanceOp::setIndices`, where the writes are not given. -/
def setIndices {P : Type} (accs : List Acc) (e : Inst P) (t : Finset Point) : Inst P :=
  if t = e.indices then e
  else { e with
    indices := t
    matched := e.matched.map fun m =>
      (m.1, (writeAccesses accs e).foldl (fun s a => s ∪ image e.inductions a t) ∅) }

/-- SCCDetection.cpp:193-211: the clone for an element of a component. -/
def sccInstance {P : Type} (accs : List Acc) (e : Inst P) (t : Finset Point) : Inst P :=
  if e.inductions = 0 then e else setIndices accs e (t.image (List.take e.inductions))

/-- SCCDetection.cpp:172-215: the components with their instances, which replace the equations. -/
def computeSCCs {P : Type} (accs : Nat → List Acc) (es : List (Inst P)) (out : List (List Cycles.View)) :
    List (List (Inst P)) :=
  out.map fun c => c.filterMap fun v => (es[v.1]?).map fun e => sccInstance (accs e.template) e v.2

end Marco.MatchPass
