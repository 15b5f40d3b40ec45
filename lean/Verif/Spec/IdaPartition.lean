import Verif.Model.IdaPartition

/-!
# What has to be given to IDA
-/

namespace Marco.Spec.Ida
open Marco.Ida

/-- The variables that IDA has to compute. `reduced`: the states, the derivatives and the variables of cycles and of implicit
equations; otherwise all those that are not read only. All the variables of a component go together. -/
inductive Needed (m : Model) (reduced : Bool) : Nat → Prop
  | state {v d} : reduced = true → v ∈ m.vars → m.der v = some d → Needed m reduced v
  | der {v d} : reduced = true → v ∈ m.vars → m.der v = some d → Needed m reduced d
  | cycle {s e} : reduced = true → s ∈ m.sccs → 1 < s.length → e ∈ s → Needed m reduced e.writes
  | implicit {e} : reduced = true → [e] ∈ m.sccs → m.explicit e = false → Needed m reduced e.writes
  | any {v} : reduced = false → v ∈ m.vars → (m.der v).isSome ∨ (m.derived v).isSome ∨ m.readOnly v = false →
      Needed m reduced v
  | member {s e e'} : s ∈ m.sccs → e ∈ s → Needed m reduced e.writes → e' ∈ s → Needed m reduced e'.writes

/-- A component is solved by IDA if one of its variables is. -/
def NeededScc (m : Model) (reduced : Bool) (s : List Eqn) : Prop := ∃ e ∈ s, Needed m reduced e.writes

/-- The map of the derivatives is consistent: both directions agree, and the variables are variables of the model. -/
def Consistent (m : Model) : Prop :=
  (∀ v d, m.der v = some d ↔ m.derived d = some v) ∧
  ∀ v d, m.der v = some d → v ∈ m.vars ∧ d ∈ m.vars ∧ m.readOnly v = false ∧ m.readOnly d = false

/-- No derivative is a state. -/
def FirstOrder (m : Model) : Prop := ∀ v d, m.der v = some d → m.der d = none

/-- The unknowns are matched: the equations matched with a variable are as many as its elements if the variable is neither
a state nor read only, and there are none otherwise. -/
def Matched (m : Model) (eqSize : Eqn → Nat) (varSize : Nat → Nat) : Prop :=
  m.sccs.flatten.Nodup ∧
  (∀ e ∈ m.sccs.flatten, e.writes ∈ m.vars ∧ m.der e.writes = none ∧ m.readOnly e.writes = false) ∧
  ∀ v ∈ m.vars, m.der v = none → m.readOnly v = false →
    ((m.sccs.flatten.filter fun e => e.writes = v).map eqSize).sum = varSize v

/-- The derivatives have the sizes of their variables. -/
def SameSizes (m : Model) (varSize : Nat → Nat) : Prop := ∀ v d, m.der v = some d → varSize d = varSize v

/-- All the states are states of IDA, and all their derivatives are derivatives. -/
def Dynamic (m : Model) (i : Inst) : Prop := ∀ v d, m.der v = some d → v ∈ i.states ∧ d ∈ i.ders

/-- IDA has as many equations as variables. -/
def Square (i : Inst) (eqSize : Eqn → Nat) (varSize : Nat → Nat) : Prop :=
  (i.eqs.map eqSize).sum = ((i.alg ++ i.states).map varSize).sum

end Marco.Spec.Ida
