import Verif.Model.Serialization
import Verif.Spec.TreeUpdate

/-!
# Specification of writing and reading back
-/

namespace Marco.Spec.Serial
open Marco Spec Marco.Serial

/-- A value is read that satisfies `ok`, and `rest` is what is left of the text; undefined behaviour is possible only if `u`
holds. -/
def Reads {α τ : Type} (u : Prop) (out : Out (α × List τ)) (ok : α → Prop) (rest : List τ) : Prop :=
  (∃ a, out = .ok (a, rest) ∧ ok a) ∨ (u ∧ out = .error .undefined)

/-- The same for attributes. -/
def Gives {α : Type} (u : Prop) (out : Out α) (ok : α → Prop) : Prop :=
  (∃ a, out = .ok a ∧ ok a) ∨ (u ∧ out = .error .undefined)

/-- A well-formed index set that has not been emptied: without points its rank is still that of a new set. -/
def Regular (s : IndexSet) : Prop := ∃ k, 0 < k ∧ SetOk k s ∧ (s.isEmpty = true → s.rank = 0)

/-- Some of its ranges can be merged: adding them one by one may have undefined behaviour (C07). -/
def Mergeable (s : IndexSet) : Prop := ¬ s.compactRanges.Pairwise Apart

/-- Equal by `operator==` of the index sets. -/
def SameSet (s t : IndexSet) : Prop := s.eq t = true

/-- Equal by `operator==` of the variables (BaseModelica/IR/Properties.cpp:22-24). -/
def SameVar (v w : Var) : Prop := v.name = w.name ∧ SameSet v.indices w.indices

end Marco.Spec.Serial
