import Verif.Model.ExternalLowering

/-! # What an external function call does to the variables -/

namespace Marco.Spec.ExtLower
open Marco.ExtLower

/-- The value of an argument before the call. -/
def argument {V : Type} (P : Parts V) (σ : Nat → V) : Arg V → V
  | .ref x p => P.sel (σ x) p
  | .expr f => f σ

/-- The variables that the external function may change through an argument: those that are not inputs (Modelica 12.9). -/
def changed {V : Type} (vars : Nat → Option Var) : Arg V → Option Nat
  | .ref x _ => (vars x).bind fun i => if i.input then none else some x
  | .expr _ => none

/-- All the references are to declared variables. -/
def Declared {V : Type} (vars : Nat → Option Var) (args : List (Arg V)) : Prop :=
  ∀ x p, Arg.ref x p ∈ args → (vars x).isSome

end Marco.Spec.ExtLower
