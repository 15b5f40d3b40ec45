/-! # The lowering of the external function calls

Model of `StandardFunctionLowerer::lowerExternalFunctionCall` and `createImplicitExternalFunctionCall`
(`/repo/lib/Codegen/Lowering/StandardFunctionLowerer.cpp`): the body of an external function is one call, whose arguments are
references to variables of the function and expressions. The lowered operations are modelled by what they do to the variables.

The values are of any type `V`, with the components and elements that the paths of the references choose. The external function
is any function that gives a result and a new value for each argument. A whole array is passed as the buffer of its variable
(`/repo/lib/Dialect/BaseModelica/Transforms/BufferizableOpInterfaceImpl.cpp:197-215`), so that the function writes into the
variable. Slices of arrays are left out: a path into an array ends at an element. -/

namespace Marco.ExtLower

/-- A variable of the function: whether it is an input, an output, and a scalar
(`/repo/lib/Codegen/Lowering/StandardFunctionLowerer.cpp:316`, `398`). -/
structure Var where
  input : Bool
  output : Bool
  scalar : Bool
deriving DecidableEq

/-- The part of a value at a path, and a value with a part replaced: what the component references read
(`/repo/lib/Codegen/Lowering/StandardFunctionLowerer.cpp:318-325`) and write (367-369). -/
structure Parts (V : Type) where
  sel : V → List Nat → V
  upd : V → List Nat → V → V
  sel_nil : ∀ v, sel v [] = v
  upd_nil : ∀ v x, upd v [] x = x
  sel_upd : ∀ v p x, sel (upd v p x) p = x

/-- An argument: a reference to a variable with a path, or an expression of the variables
(`/repo/lib/Codegen/Lowering/StandardFunctionLowerer.cpp:300-306`). -/
inductive Arg (V : Type) where
  | ref (x : Nat) (p : List Nat)
  | expr (f : (Nat → V) → V)

/-- What becomes of an argument: a temporary with the present value (324-333), the buffer of a variable, or a value (339-347;
file `/repo/lib/Codegen/Lowering/StandardFunctionLowerer.cpp`). -/
inductive Passed (V : Type) where
  | temp (x : Nat) (p : List Nat) (v : V)
  | shared (x : Nat) (v : V)
  | value (v : V)

/-- The value that the external function receives (`/repo/lib/Codegen/Lowering/StandardFunctionLowerer.cpp:332`, `346`). -/
def Passed.val {V : Type} : Passed V → V
  | .temp _ _ v => v
  | .shared _ v => v
  | .value v => v

/-- `/repo/lib/Codegen/Lowering/StandardFunctionLowerer.cpp:300-348`: one argument. `none`: an error message for a variable that is
not declared (308-314). -/
def lowerArg {V : Type} (P : Parts V) (vars : Nat → Option Var) (σ : Nat → V) : Arg V → Option (Passed V)
  | .expr f => some (.value (f σ))
  | .ref x p =>
    match vars x with
    | none => none
    | some i =>
      if !i.input && i.scalar then some (.temp x p (P.sel (σ x) p))
      else if !i.scalar && p.isEmpty then some (.shared x (σ x))
      else some (.value (P.sel (σ x) p))

/-- `/repo/lib/Codegen/Lowering/StandardFunctionLowerer.cpp:300-348`: all the arguments. -/
def lowerArgs {V : Type} (P : Parts V) (vars : Nat → Option Var) (σ : Nat → V) : List (Arg V) → Option (List (Passed V))
  | [] => some []
  | a :: args =>
    match lowerArg P vars σ a, lowerArgs P vars σ args with
    | some q, some qs => some (q :: qs)
    | _, _ => none

/-- An assignment to a reference (`/repo/lib/Codegen/Lowering/StandardFunctionLowerer.cpp:367-369`, `376-380`). -/
def assign {V : Type} (P : Parts V) (σ : Nat → V) (x : Nat) (p : List Nat) (v : V) : Nat → V :=
  fun y => if y = x then P.upd (σ x) p v else σ y

/-- What the external function writes into the buffers of the variables; `new k` is the value of argument `k` after the call
(`/repo/lib/Dialect/BaseModelica/Transforms/BufferizableOpInterfaceImpl.cpp:197-215`). -/
def writeShared {V : Type} (new : Nat → V) : Nat → List (Passed V) → (Nat → V) → Nat → V
  | _, [], σ => σ
  | k, .shared x _ :: qs, σ => writeShared new (k + 1) qs fun y => if y = x then new k else σ y
  | k, _ :: qs, σ => writeShared new (k + 1) qs σ

/-- `/repo/lib/Codegen/Lowering/StandardFunctionLowerer.cpp:357-372`: the temporaries are copied to the variables, in the order of
the arguments. -/
def copyTemps {V : Type} (P : Parts V) (new : Nat → V) : Nat → List (Passed V) → (Nat → V) → Nat → V
  | _, [], σ => σ
  | k, .temp x p _ :: qs, σ => copyTemps P new (k + 1) qs (assign P σ x p (new k))
  | k, _ :: qs, σ => copyTemps P new (k + 1) qs σ

/-- `/repo/lib/Codegen/Lowering/StandardFunctionLowerer.cpp:259-384` (`lowerExternalFunctionCall`): the variables after the body,
for the external function `F`. `none`: an error message. -/
def lowerCall {V : Type} (P : Parts V) (vars : Nat → Option Var) (F : List V → V × (Nat → V)) (dest : Option (Nat × List Nat))
    (args : List (Arg V)) (σ : Nat → V) : Option (Nat → V) :=
  match lowerArgs P vars σ args with
  | none => none
  | some qs =>
    let r := F (qs.map Passed.val)
    let σ' := copyTemps P r.2 0 qs (writeShared r.2 0 qs σ)
    match dest with
    | none => some σ'
    | some (x, p) => some (assign P σ' x p r.1)

/-- `/repo/lib/Codegen/Lowering/StandardFunctionLowerer.cpp:386-447` (`createImplicitExternalFunctionCall`): `decls` are the variables
in the order of their declarations. All those that are not outputs are arguments (422-430); more than one output is an error
(399-407). What the function writes through the pointers of the arguments is left out here. -/
def implicitCall {V : Type} (F : List V → V × (Nat → V)) (decls : List (Nat × Var)) (σ : Nat → V) : Option (Nat → V) :=
  match (decls.filter fun d => d.2.output).map Prod.fst with
  | [] => some σ
  | [y] => some fun z => if z = y then (F ((decls.filter fun d => !d.2.output).map fun d => σ d.1)).1 else σ z
  | _ => none

end Marco.ExtLower
