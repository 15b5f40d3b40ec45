import Verif.Model.IdaJacobian
import Verif.Spec.Derivative
import Verif.Spec.FunctionDerivative

/-!
# Meaning of the Jacobian functions, and the partial derivatives of the residual
-/

namespace Marco.Spec.IdaJac
open Marco.Derivatives Marco.IdaJac Filter Topology

/-- The values of the elements of the variables. -/
abbrev Mem := Nat → Nat → ℝ

/-- A change of one element. -/
noncomputable def put (x : Mem) (v k : Nat) (s : ℝ) : Mem := fun w j => if w = v ∧ j = k then s else x w j

/-- The value of an access. -/
def leafVal (x : Mem) (inds : List ℤ) : Leaf → ℝ
  | .elem v k => x v k
  | .ind i => inds.getD i 0

/-- The values of the accesses of an equation. -/
def env (x : Mem) (q : Eqn) (n : Nat) : ℝ := match q.acc[n]? with
  | some a => leafVal x q.inds a
  | none => 0

/-- The residual of an equation: the right-hand side minus the left-hand side. -/
noncomputable def F (q : Eqn) (x : Mem) (t : ℝ) : Option ℝ :=
  (ev (env x q) t q.rhs).bind fun r => (ev (env x q) t q.lhs).map fun l => r - l

/-- The partial derivative of the residual with respect to an element of a variable. -/
def Partial (q : Eqn) (x : Mem) (t : ℝ) (v k : Nat) (d : ℝ) : Prop :=
  ∃ f : ℝ → ℝ, (∀ᶠ s in 𝓝 (x v k), F q (put x v k s) t = some (f s)) ∧ HasDerivAt f d (x v k)

/-- What is read in a function: `junk` is the value of the output before its assignment. -/
def srcVal (x : Mem) (inds : List ℤ) (junk : ℝ) : Src → ℝ
  | .indep v k => x v k
  | .model v k => x v k
  | .ind i => inds.getD i 0
  | .out => junk

/-- The seeds, by position and element. -/
abbrev Seeds := Nat → Nat → ℝ

/-- The seed for what is read. -/
def srcSeed (m : Model) (q : Eqn) (s : Seeds) (junk : ℝ) : Src → ℝ
  | .indep v k => match pos m q v with
    | some p => s p k
    | none => 0
  | .model _ _ => 0
  | .ind _ => 0
  | .out => junk

/-- The values in a call of the template function. -/
def callEnv (m : Model) (q : Eqn) (x : Mem) (junk junk' : ℝ) (s : Seeds) (n : Nat) : ℝ :=
  if n < q.acc.length then (match q.acc[n]? with
    | some a => srcVal x q.inds junk (source m q a)
    | none => 0)
  else match q.acc[n - q.acc.length]? with
    | some a => srcSeed m q s junk' (source m q a)
    | none => 0

/-- A value to be stored. -/
def seedVal (α : ℝ) : Seed → ℝ
  | .zero => 0
  | .one => 1
  | .alpha => α

/-- The execution of the operations: the results of the calls, and the seeds. -/
noncomputable def run (call : Seeds → Option ℝ) (α : ℝ) : List Instr → Seeds → Option (List ℝ × Seeds)
  | [], s => some ([], s)
  | .store a p k :: l, s => run call α l (put s p k (seedVal α a))
  | .call :: l, s => (call s).bind fun r => (run call α l s).map fun z => (r :: z.1, z.2)

/-- The result. -/
def result (α : ℝ) : Bool → List ℝ → Option ℝ
  | false, [a] => some a
  | true, [a, b] => some (a + α * b)
  | _, _ => none

/-- The execution of a Jacobian function whose template is `e`, from given seeds: the result and the seeds. -/
noncomputable def exec (m : Model) (q : Eqn) (e : Expr) (x : Mem) (t α junk junk' : ℝ) (j : Jac) (s : Seeds) :
    Option (ℝ × Seeds) :=
  (run (fun s => ev (callEnv m q x junk junk' s) t e) α j.body s).bind fun z =>
    (result α j.second z.1).map fun r => (r, z.2)

/-- The map of the derivatives is consistent: both directions agree; the variables with a derivative, and the derivatives, are
variables that are not read only. -/
def Consistent (m : Model) : Prop :=
  (∀ v d, m.der v = some d ↔ m.derived d = some v) ∧
  ∀ v d, m.der v = some d → v ≠ d ∧ v < m.vars.length ∧ d < m.vars.length ∧ m.readOnly v = false ∧ m.readOnly d = false

/-- The expressions use the accesses, and these are to variables of the model. -/
def WellFormed (m : Model) (q : Eqn) : Prop :=
  FnDer.Uses (· < q.acc.length) q.lhs ∧ FnDer.Uses (· < q.acc.length) q.rhs ∧
  (∀ v k, .elem v k ∈ q.acc → v < m.vars.length) ∧ (m.vars.map Var.name).Nodup

/-- No variable that is read only has the name of a local variable of the function that is differentiated. -/
def NoCapture (m : Model) (q : Eqn) : Prop :=
  ∀ v k x, .elem v k ∈ q.acc → m.vars[v]? = some x → x.readOnly = true →
    x.name ∉ inductions m q ∧ x.name ≠ outName m q

end Marco.Spec.IdaJac
