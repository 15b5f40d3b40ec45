import Verif.Model.ArrayConstructors
import Verif.Spec.Execution

/-!
# The value of array constructors (Modelica Language Specification, "Vector, Matrix and Array Constructors")
-/

namespace Marco.Spec
open Marco.Stmts Marco.Arrays

/-- The values that an iteration variable takes. -/
def genValues (i : GenIndex) : List Int :=
  match i.third with
  | none => rangeValues i.first 1 i.second
  | some e => rangeValues i.first i.second e

/-- `HasShape a sh`: the array has these dimensions; the elements of `{a, b, …}` have the same dimensions. In
`{e for i in r, j in s}` the last iteration variable gives the first dimension. -/
inductive HasShape : {l : Bool} → Arr l → List Nat → Prop where
  | leaf {e} : HasShape (.leaf e) []
  | whole {x sh} : HasShape (.whole x sh) sh
  | arr {a as sh} : HasShape (.cons a as) sh → HasShape (.arr (.cons a as)) ((as.toList.length + 1) :: sh)
  | gen {is v sh} : HasShape v sh → HasShape (.gen is v) ((is.reverse.map fun i => (genValues i).length) ++ sh)
  | nil {sh} : HasShape .nil sh
  | cons {a as sh} : HasShape a sh → HasShape as sh → HasShape (.cons a as) sh

/-- Nested iterations, the outermost first. -/
def iterate (f : Iters → List Int) : List GenIndex → Iters → List Int
  | [], ρ => f ρ
  | i :: is, ρ => (genValues i).flatMap fun v => iterate f is (bindIter ρ i.name v)

/-- The elements in row-major order; `ν` gives the elements of the variables that are arrays. -/
def elements (ν : String → List Int) (σ : Store) : {l : Bool} → Arr l → Iters → List Int
  | _, .leaf e, ρ => [evalEx ρ σ e]
  | _, .whole x _, _ => ν x
  | _, .arr cs, ρ => elements ν σ cs ρ
  | _, .gen is v, ρ => iterate (elements ν σ v) is.reverse ρ
  | _, .nil, _ => []
  | _, .cons a as, ρ => elements ν σ a ρ ++ elements ν σ as ρ

/-- The names are in scope. -/
def arrScoped : {l : Bool} → Scope → Arr l → Bool
  | _, Γ, .leaf e => exScoped Γ e
  | _, Γ, .whole x _ => x ∈ Γ.vars
  | _, Γ, .arr cs => arrScoped Γ cs
  | _, Γ, .gen is v => arrScoped { Γ with inds := is.map (·.name) ++ Γ.inds } v
  | _, _, .nil => true
  | _, Γ, .cons a as => arrScoped Γ a && arrScoped Γ as

/-- The value of scalar elements. -/
def scalarValues (ρ : Iters) (σ : Store) : List Elem → Option (List Int)
  | [] => some []
  | .scalar e :: es => (scalarValues ρ σ es).map (evalIr ρ σ e :: ·)
  | .array _ _ :: _ => none

/-- The dimensions and the elements of a tensor; `none` if the operation is not valid (Ops.td and the verifiers of
`TensorFromElementsOp` and `TensorBroadcastOp`): an element that is not a scalar, or a number of elements that is not the
product of the dimensions. -/
def tensorValue (ρ : Iters) (σ : Store) : Tensor → Option (List Int × List Int)
  | .fromElements shape es =>
    if (∀ d ∈ shape, 0 ≤ d) ∧ shape.prod = es.length then (scalarValues ρ σ es).map (shape, ·) else none
  | .broadcast shape (.scalar e) =>
    if ∀ d ∈ shape, 0 ≤ d then some (shape, List.replicate shape.prod.toNat (evalIr ρ σ e)) else none
  | .broadcast _ (.array _ _) => none

/-- No element is an array variable, no generator uses its iteration variables (those outside are in `hidden`), and
the ranges are `1:n`. -/
def plain : {l : Bool} → List String → Arr l → Bool
  | _, hidden, .leaf e => (reads e).all fun x => !(x ∈ hidden)
  | _, _, .whole _ _ => false
  | _, hidden, .arr cs => plain hidden cs
  | _, hidden, .gen is v =>
    is.all (fun i => i.first = 1 && (i.third.isNone || i.second = 1) && 0 ≤ i.third.getD i.second) &&
      plain (is.map (·.name) ++ hidden) v
  | _, _, .nil => true
  | _, hidden, .cons a as => plain hidden a && plain hidden as

/-- There is no generator in the constructor. -/
def generatorFree : {l : Bool} → Arr l → Bool
  | _, .leaf _ => true
  | _, .whole _ _ => true
  | _, .arr cs => generatorFree cs
  | _, .gen _ _ => false
  | _, .nil => true
  | _, .cons a as => generatorFree a && generatorFree as

end Marco.Spec
