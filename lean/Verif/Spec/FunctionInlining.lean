import Verif.Model.FunctionInlining

/-!
# The meaning of a call, and of the operations that replace it
-/

namespace Marco.Spec.Inline
open Marco.Inline

/-- The meaning of the operations: of the pure ones, from the values of their operands and of the variables read inside
them; of the assignment to an element, from the former value of the variable, if it has one. -/
structure Meaning (V : Type) where
  apply : Nat → List V → List V → V
  update : Option V → List V → V → V

variable {V : Type}

/-- The values of the variables of the function, and those of the operations. -/
structure Env (V : Type) where
  vars : Nat → Option V
  vals : Nat → Option V

/-- Execution of an operation, other than `return`. `none`: a variable or a value without a value is used. -/
def exec (M : Meaning V) (s : Env V) : Op → Option (Env V)
  | .get r x => (s.vars x).map fun v => { s with vals := fun y => if y = r then some v else s.vals y }
  | .set x subs e => do
    let v ← s.vals e
    let is ← subs.mapM s.vals
    let new := if subs = [] then v else M.update (s.vars x) is v
    some { s with vars := fun y => if y = x then some new else s.vars y }
  | .pure r k args reads sets => do
    let vs ← args.mapM s.vals
    let rs ← reads.mapM s.vars
    if sets = [] then some { s with vals := fun y => if y = r then some (M.apply k vs rs) else s.vals y } else none
  | .ret => none

/-- Execution of a body. -/
def run (M : Meaning V) : List Op → Env V → Option (Env V)
  | [], s => some s
  | .ret :: _, s => some s
  | op :: l, s => exec M s op >>= run M l

/-- The value of a region. -/
def evalRegion (M : Meaning V) (vars : Nat → Option V) (d : Region) : Option V := do
  let s ← run M d.ops ⟨vars, fun _ => none⟩
  s.vals d.yielded

/-- A call: its arguments and, if they are named, the names. -/
structure Call (V : Type) where
  args : List V
  names : Option (List Nat)

/-- The argument for a variable. -/
def Call.argument (c : Call V) (f : Function) (x : Nat) (v : V) : Prop :=
  ∃ i : Nat, (c.names.getD f.inputs)[i]? = some x ∧ c.args[i]? = some v

/-- The values with which the variables begin: the arguments; the default values, which may depend on the other
variables; none for the other variables. -/
def Begins (M : Meaning V) (f : Function) (c : Call V) (vars : Nat → Option V) : Prop :=
  ∀ x, (∀ v, c.argument f x v → vars x = some v) ∧
    ((∀ v, ¬ c.argument f x v) → ∀ d, f.default x = some d → ∃ v, evalRegion M vars d = some v ∧ vars x = some v) ∧
    ((∀ v, ¬ c.argument f x v) → f.default x = none → vars x = none)

/-- The call returns `rs`. -/
def Returns (M : Meaning V) (f : Function) (c : Call V) (rs : List V) : Prop :=
  ∃ vars s, Begins M f c vars ∧ run M f.algorithms.flatten ⟨vars, fun _ => none⟩ = some s ∧
    f.outputs.mapM s.vars = some rs

/-- A call that fits the function: arguments for distinct inputs. -/
structure Fits (f : Function) (c : Call V) : Prop where
  inputs : f.inputs.Nodup
  args : c.args.length ≤ f.inputs.length
  names : ∀ ns, c.names = some ns → ns.Nodup ∧ ns.length = c.args.length ∧ ∀ x ∈ ns, x ∈ f.inputs

/-! ## The caller -/

/-- The value of a value of the caller. -/
def value (args news : List V) : Val → Option V
  | .arg i => args[i]?
  | .new n => news[n]?

/-- Evaluation of the copied operations in the caller, whose variables have the values `caller`; the results of the
operations. `none`: the caller has no such variable, or it is left. -/
def evalOps (M : Meaning V) (caller : Nat → Option V) (args : List V) : List NOp → List V → Option (List V)
  | [], news => some news
  | .get x :: l, news => do
    let v ← caller x
    evalOps M caller args l (news ++ [v])
  | .pure k as reads :: l, news => do
    let vs ← as.mapM (value args news)
    let rs ← reads.mapM caller
    evalOps M caller args l (news ++ [M.apply k vs rs])
  | .ret :: _, _ => none

/-- The call is replaced by operations that give the results `rs`. -/
def Replaced (M : Meaning V) (caller : Nat → Option V) (c : Call V) (r : Option (List NOp × List (Option Val)))
    (rs : List V) : Prop :=
  ∃ ops vals news, r = some (ops, vals) ∧ evalOps M caller c.args ops [] = some news ∧
    vals.mapM (fun v => v.bind (value c.args news)) = some rs

/-! ## Functions for which the inlining is right -/

/-- The default value does not depend on variables. -/
def Constant (M : Meaning V) (d : Region) : Prop :=
  (∀ op ∈ d.ops, ∃ r k as, op = .pure r k as [] []) ∧ ∃ v, evalRegion M (fun _ => none) d = some v

/-- No assignment to an element, no region that reads variables, no `return`. -/
def Simple : Op → Prop
  | .get _ _ => True
  | .set _ subs _ => subs = []
  | .pure _ _ _ reads _ => reads = []
  | .ret => False

end Marco.Spec.Inline
