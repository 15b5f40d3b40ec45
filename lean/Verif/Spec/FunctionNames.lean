import Verif.Model.FunctionNames

/-!
# What the names of the functions are to be
-/

namespace Marco.Spec.FnNames
open Marco.FnNames

/-- A path leads to a function. -/
def Leads (m : Mod) (p : List String) (id : Nat) : Prop := ∃ f ∈ m.fns, f.scope ++ [f.name] = p ∧ f.id = id

/-- All the symbols of a module. -/
def symbols (m : Mod) : List (List String) := m.others ++ m.fns.map fun f => f.scope ++ [f.name]

/-- A module as the verifier accepts it: each symbol is there once, and so are the classes around it. -/
structure Valid (m : Mod) : Prop where
  ids : (m.fns.map Fn.id).Nodup
  once : (symbols m).Nodup
  some_name : [] ∉ m.others
  enclosed : ∀ p ∈ symbols m, ∀ q, q ≠ [] → q <+: p → q ∈ symbols m

end Marco.Spec.FnNames
