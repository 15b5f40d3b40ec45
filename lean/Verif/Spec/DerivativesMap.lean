import Verif.Model.DerivativesMap
import Verif.Spec.Serialization

/-!
# Specification of the map of the derivatives
-/

namespace Marco.Spec.DMap
open Marco Spec Marco.Serial Marco.Spec.Serial

/-- A well-formed map: each key once, and the index sets are well formed. -/
structure Ok (m : Serial.DMap) : Prop where
  ders : (m.ders.map (·.1)).Nodup
  idx : (m.idx.map (·.1)).Nodup
  inv : (m.inv.map (·.1)).Nodup
  sets : ∀ e ∈ m.idx, Regular e.2

/-- The maps agree: derivatives and derived variables are inverse to each other, and the variables with derivatives are those
with indices. -/
structure Linked (m : Serial.DMap) : Prop where
  inverse : ∀ v d, m.getDerivative v = some d ↔ m.getDerivedVariable d = some v
  indices : ∀ v, (m.getDerivative v).isSome ↔ (m.getDerivedIndices v).isSome

/-- Some index set has ranges that can be merged (C07). -/
def HasMergeable (m : Serial.DMap) : Prop := ∃ e ∈ m.idx, Mergeable e.2

/-- The ways in which the passes change the map. -/
inductive Cmd where
  | setDerivative (v d : Sym)
  | setDerivedIndices (v : Sym) (s : IndexSet)
  | addDerivedIndices (v : Sym) (s : IndexSet)

/-- One change. -/
def step (plus : IndexSet → IndexSet → IndexSet) (m : Serial.DMap) : Cmd → Serial.DMap
  | .setDerivative v d => m.setDerivative v d
  | .setDerivedIndices v s => m.setDerivedIndices v s
  | .addDerivedIndices v s => m.addDerivedIndices plus v s

/-- A new map, changed. -/
def run (plus : IndexSet → IndexSet → IndexSet) (cs : List Cmd) : Serial.DMap := cs.foldl (step plus) .empty

/-- The derivatives given agree: a variable has one derivative, and is the only one with it. -/
def Agree (cs : List Cmd) : Prop :=
  ∀ v d v' d', Cmd.setDerivative v d ∈ cs → Cmd.setDerivative v' d' ∈ cs → (v = v' ↔ d = d')

/-- The point was added to the indices of the variable, or set, and they were not set since. -/
def Given (cs : List Cmd) (v : Sym) (p : Point) : Prop :=
  ∃ pre s post, (cs = pre ++ Cmd.setDerivedIndices v s :: post ∨ cs = pre ++ Cmd.addDerivedIndices v s :: post) ∧ Has s p ∧
    ∀ s', Cmd.setDerivedIndices v s' ∉ post

end Marco.Spec.DMap
