import Verif.Model.CallArguments

/-! # What the arguments of a call mean -/

namespace Marco.Spec.CallArgs
open Marco.CallArgs

/-- The value of an operand, for given conversions between types. -/
def eval {α : Type} (conv : Ty → Ty → α → α) : Value α → α
  | .leaf _ a => a
  | .cast t v => conv v.ty t (eval conv v)
  | .arrayCast t v => conv v.ty t (eval conv v)

/-- The value of an argument without name. -/
def value? {α : Type} : Arg α → Option α
  | .pos v => some v
  | .named _ _ => none

/-- The name and the value of an argument with name. -/
def binding? {α : Type} : Arg α → Option (String × α)
  | .pos _ => none
  | .named n v => some (n, v)

/-- The arguments without name of a call. -/
def positional {α : Type} (args : List (Arg α)) : List α := args.filterMap value?

/-- The arguments with name. -/
def byName {α : Type} (args : List (Arg α)) : List (String × α) := args.filterMap binding?

/-- The value that a call gives to the parameter in position `k` (Modelica 12.4.1): the argument in that position, or else the
one with the name of the parameter. -/
def given {α : Type} (names : List String) (args : List (Arg α)) (k : Nat) : Option α :=
  match (positional args)[k]? with
  | some v => some v
  | none => (names[k]?).bind fun n => (byName args).lookup n

/-- The arguments without name come first (as the parser grants), there are not too many of them, and each name is that of one
of the other parameters and is used once. -/
structure WellFormed {α : Type} (names : List String) (args : List (Arg α)) : Prop where
  first : args = (positional args).map .pos ++ (byName args).map fun p => .named p.1 p.2
  few : (positional args).length ≤ names.length
  named : ∀ n ∈ (byName args).map Prod.fst, n ∈ names.drop (positional args).length
  once : ((byName args).map Prod.fst).Nodup

/-- A value can be given to a parameter: scalars and tensors, or arrays of the same rank. -/
def Fits (a b : Ty) : Prop := a.arrayRank = b.arrayRank

end Marco.Spec.CallArgs
