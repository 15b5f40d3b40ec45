import Verif.Model.DefaultValues
import Mathlib.Logic.Relation

/-! # Meaning of the default values -/

namespace Marco.Spec.Defaults
open Marco.Defaults

variable {V : Type}

/-- What the opaque operations compute, from their operands and from the variables read inside. -/
abbrev Meaning (V : Type) := Nat → List V → List V → V

/-- The values after some operations, where the variables have the values `ρ`. -/
def valuesAfter (I : Meaning V) (ρ : Nat → V) : List V → List Op → Option (List V)
  | vals, [] => some vals
  | vals, .get x :: ops => valuesAfter I ρ (vals ++ [ρ x]) ops
  | vals, .app f args reads :: ops =>
    match args.mapM fun a => vals[a]? with
    | some as => valuesAfter I ρ (vals ++ [I f as (reads.map ρ)]) ops
    | none => none

/-- The value computed by the body of a default value. -/
def bodyValue (I : Meaning V) (ρ : Nat → V) (b : Body) : Option V :=
  (valuesAfter I ρ [] b.ops).bind fun vals => vals[b.result]?

/-- The argument of the call for the variable `x` is the value `v`. -/
def Supplies (f : Fn) (c : Call) (x v : Nat) : Prop :=
  match c.names with
  | some ns => (x, v) ∈ ns.zip c.args
  | none => (x, v) ∈ f.inputs.zip c.args

/-- The input variables have the values `a` at the beginning of the call: the one of the argument, or
the one of the default value, computed from the values of the other input variables. -/
def Binds (f : Fn) (c : Call) (I : Meaning V) (vals : List V) (a : Nat → V) : Prop :=
  ∀ x ∈ f.inputs,
    (∃ v, Supplies f c x v ∧ vals[v]? = some (a x)) ∨
    ((∀ v, ¬ Supplies f c x v) ∧ ∃ b, (x, b) ∈ f.defaults ∧ bodyValue I a b = some (a x))

/-- What the callee receives: its parameters are bound by position (BaseModelicaToFunc.cpp:305-322),
after the operations put before the call; `ρ` are the variables visible to the caller. -/
def received (I : Meaning V) (ρ : Nat → V) (vals : List V) (code : List Op × Call) :
    Option (List V) :=
  (valuesAfter I ρ vals code.1).bind fun vals' => code.2.args.mapM fun v => vals'[v]?

/-- The operands precede the operations. -/
def SsaOk : Nat → List Op → Prop
  | _, [] => True
  | n, .get _ :: ops => SsaOk (n + 1) ops
  | n, .app _ args _ :: ops => (∀ a ∈ args, a < n) ∧ SsaOk (n + 1) ops

/-- The default value of `x` reads `y`. -/
def ReadsVar (defaults : List (Nat × Body)) (x y : Nat) : Prop :=
  ∃ b, (x, b) ∈ defaults ∧ ∃ o ∈ b.ops, y ∈ o.reads

/-- The names of the variables are distinct, at most one default value for each of them, well formed,
that reads variables of the function; a default value does not depend on itself. -/
structure FnOk (f : Fn) : Prop where
  names : (f.vars.map fun v => v.name).Nodup
  single : (f.defaults.map Prod.fst).Nodup
  known : ∀ d ∈ f.defaults, d.1 ∈ f.vars.map fun v => v.name
  ssa : ∀ d ∈ f.defaults, SsaOk 0 d.2.ops ∧ d.2.result < d.2.ops.length
  reads : ∀ x y, ReadsVar f.defaults x y → y ∈ f.vars.map fun v => v.name
  acyclic : ∀ x, ¬ Relation.TransGen (ReadsVar f.defaults) x x

/-- The default values of the input variables read input variables only. -/
def InputsClosed (f : Fn) : Prop := ∀ x ∈ f.inputs, ∀ y, ReadsVar f.defaults x y → y ∈ f.inputs

/-- Ops.cpp:10980-11048, `CallOp::verifySymbolUses`, for a caller with `n` values: the call is
accepted. -/
structure CallOk (f : Fn) (n : Nat) (c : Call) : Prop where
  args : ∀ v ∈ c.args, v < n
  named : ∀ ns, c.names = some ns → ns.length = c.args.length ∧ ns.Nodup ∧ ∀ x ∈ ns, x ∈ f.inputs
  positional : c.names = none → c.args.length ≤ f.inputs.length
  missing : ∀ x ∈ f.inputs, (∀ v, ¬ Supplies f c x v) → ∃ b, (x, b) ∈ f.defaults

/-- No operation of the default values of the input variables reads variables inside its regions. -/
def FlatReads (f : Fn) : Prop :=
  ∀ d ∈ f.defaults, d.1 ∈ f.inputs → ∀ o ∈ d.2.ops, ∀ g as rs, o = .app g as rs → rs = []

/-- Execution of the statements: the values and the variables. -/
def exec (I : Meaning V) : List V → (Nat → V) → List Stm → Option (Nat → V)
  | _, ρ, [] => some ρ
  | vals, ρ, .op (.get x) :: l => exec I (vals ++ [ρ x]) ρ l
  | vals, ρ, .op (.app f args reads) :: l =>
    match args.mapM fun a => vals[a]? with
    | some as => exec I (vals ++ [I f as (reads.map ρ)]) ρ l
    | none => none
  | vals, ρ, .set x v :: l =>
    match vals[v]? with
    | some a => exec I vals (fun y => if y = x then a else ρ y) l
    | none => none

/-- The variable `x`, not an input, has a default value. -/
def OwnDefault (f : Fn) (x : Nat) : Prop := x ∉ f.inputs ∧ ∃ b, (x, b) ∈ f.defaults

/-- The variables are initialized: those that are not inputs and have a default value have it,
computed from the values of the variables; the others are unchanged. -/
def Initialized (f : Fn) (I : Meaning V) (ρ ρ' : Nat → V) : Prop :=
  (∀ x b, (x, b) ∈ f.defaults → x ∉ f.inputs → bodyValue I ρ' b = some (ρ' x)) ∧
  ∀ x, ¬ OwnDefault f x → ρ' x = ρ x

/-- The dimensions of `x` read `y`. -/
def DimReads (f : Fn) (x y : Nat) : Prop :=
  ∃ v ∈ f.vars, v.name = x ∧ ∃ o ∈ v.dims, y ∈ o.reads

end Marco.Spec.Defaults
