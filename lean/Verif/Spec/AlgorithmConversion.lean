import Verif.Model.AlgorithmConversion
import Verif.Spec.Execution

/-!
# What an algorithm of a model means
-/

namespace Marco.Spec.AlgConv
open Marco.Stmts Marco.AlgConv

/-- The variables that an expression reads. -/
def readIn : IrEx → List String
  | .get x => [x]
  | .op _ a b => readIn a ++ readIn b
  | .const _ | .ind _ => []

/-- The variables that are read somewhere in an algorithm. -/
def readBy : IrSt → List String
  | .set _ e => readIn e
  | .seq a b => readBy a ++ readBy b
  | .ifOp c a b => readIn c ++ (readBy a ++ readBy b)
  | .whileOp c a => readIn c ++ readBy a
  | .forOp _ first last step a => readIn first ++ (readIn last ++ (readIn step ++ readBy a))
  | .skip | .noRegion | .breakOp | .returnOp => []

/-- The variables that are assigned somewhere in an algorithm. -/
def assigned : IrSt → List String
  | .set x _ => [x]
  | .seq a b | .ifOp _ a b => assigned a ++ assigned b
  | .whileOp _ a | .forOp _ _ _ _ a => assigned a
  | .skip | .noRegion | .breakOp | .returnOp => []

/-- The start value of a variable, where the variables have the values `σ`. -/
def startValue (m : Model) (σ : Store) (x : String) : Option Int :=
  (m.starts.find? fun s => s.var == x).map fun s => evalIr (fun _ => none) σ s.value

/-- The algorithm is executed from the start values of the variables it assigns (Modelica Language Specification,
"Execution of an algorithm in a model"), and ends with the values `σ`. -/
def Satisfies (m : Model) (a : IrSt) (σ : Store) : Prop :=
  ∃ (σ₀ τ : Store) (o : Ending),
    (∀ x, x ∈ assigned a → startValue m σ x = some (σ₀ x)) ∧ (∀ x, x ∉ assigned a → σ₀ x = σ x) ∧
    o ≠ .brk ∧ IrExec (fun _ => none) (.st a) σ₀ o τ ∧ ∀ x ∈ assigned a, τ x = σ x

/-- What a call of a function returns: the input variables have the values of the arguments, the output variables
their default values, computed in the function. -/
def Returned (f : Fn) (args results : List Int) : Prop :=
  ∃ (σ₀ τ : Store) (o : Ending), f.inputs.map σ₀ = args ∧
    f.defaults.map (·.var) = f.outputs ∧ f.outputs.map σ₀ = f.defaults.map (fun d => evalIr (fun _ => none) σ₀ d.value) ∧
    o ≠ .brk ∧ IrExec (fun _ => none) (.st f.body) σ₀ o τ ∧ f.outputs.map τ = results

/-- An equation holds: the result of the call is the value of the variable. -/
def Holds (f : Fn) (σ : Store) (e : Equation) : Prop :=
  ∃ results, Returned f (e.args.map σ) results ∧ results[e.result]? = some (σ e.lhs)

/-- The function is valid: distinct variables, which are all declared; the input variables are not assigned. -/
structure Valid (f : Fn) : Prop where
  distinct : (f.inputs ++ f.outputs).Nodup
  gets : ∀ x ∈ readBy f.body, x ∈ f.inputs ++ f.outputs
  sets : ∀ x ∈ assigned f.body, x ∈ f.outputs
  defaults : ∀ d ∈ f.defaults, d.var ∈ f.outputs ∧ ∀ x ∈ readIn d.value, x ∈ f.inputs ++ f.outputs

/-- The start values of the assigned variables depend on no assigned variable: they are parameter expressions. -/
def StartsFixed (m : Model) (a : IrSt) : Prop :=
  ∀ s ∈ m.starts, s.var ∈ assigned a → ∀ x ∈ readIn s.value, x ∉ assigned a

/-- They depend only on variables that the algorithm reads. -/
def StartsRead (m : Model) (a : IrSt) : Prop :=
  ∀ s ∈ m.starts, s.var ∈ assigned a → ∀ x ∈ readIn s.value, x ∈ readBy a

end Marco.Spec.AlgConv
