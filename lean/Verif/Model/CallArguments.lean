/-! # The arguments of the calls

Model of the lowering of the arguments of the calls of functions and record constructors (`CallLowerer.cpp`) and of the pass
`ExplicitCastInsertion`, which gives the arguments the types of the parameters. The names of the arguments that the front end
computes are not used afterwards: the assertions at `CallLowerer.cpp:41` and `:88` are compiled out. The vectorization of the
calls (`CallLowerer.cpp:58-62`) is in `Model/Vectorization.lean`: here the call is one that needs none. -/

namespace Marco.CallArgs

inductive Elt where
  | boolean
  | integer
  | real
  | index
deriving DecidableEq

/-- The types of the values: scalars, tensors, and arrays (`ArrayType`); a dimension may be dynamic. -/
inductive Ty where
  | scalar (e : Elt)
  | tensor (e : Elt) (shape : List (Option Nat))
  | array (e : Elt) (shape : List (Option Nat))
deriving DecidableEq

/-- `mlir::isa<ArrayType>` and `getRank`. -/
def Ty.arrayRank : Ty → Option Nat
  | .array _ s => some s.length
  | _ => none

/-- An SSA value: one of the program, of type `t`, or the result of a `CastOp` or of an `ArrayCastOp`. -/
inductive Value (α : Type) where
  | leaf (t : Ty) (a : α)
  | cast (t : Ty) (v : Value α)
  | arrayCast (t : Ty) (v : Value α)
deriving DecidableEq

def Value.ty {α : Type} : Value α → Ty
  | .leaf t _ => t
  | .cast t _ => t
  | .arrayCast t _ => t

/-- A parameter of the function: an `input` variable. -/
structure Input where
  name : String
  ty : Ty
  hasDefault : Bool
deriving DecidableEq

/-- The arguments of a call: `ExpressionFunctionArgument` and `NamedFunctionArgument`. -/
inductive Arg (α : Type) where
  | pos (v : α)
  | named (n : String) (v : α)
deriving DecidableEq

def Arg.isNamed {α : Type} : Arg α → Bool
  | .pos _ => false
  | .named _ _ => true

/-- The outcome: a result, an error message, or undefined behaviour. -/
inductive Out (β : Type) where
  | ok (b : β)
  | error
  | undef
deriving DecidableEq

/-! ### The front end -/

/-- `/repo/lib/Codegen/Lowering/CallLowerer.cpp:228-244` and `300-316`: the named arguments. `none`: an argument without name,
where the cast to `NamedFunctionArgument` is undefined. -/
def namedLoop {α : Type} : List (Arg α) → Option (List String × List α)
  | [] => some ([], [])
  | .pos _ :: _ => none
  | .named n v :: r => (namedLoop r).map fun p => (n :: p.1, v :: p.2)

/-- `/repo/lib/Codegen/Lowering/CallLowerer.cpp:205-226` and `277-298`: the arguments without name, from the position `i`.
`none`: `calleeInputs[argIndex]` is out of bounds. -/
def posLoop {α : Type} (inputs : List String) (existsNamed : Bool) :
    Nat → List (Arg α) → Option (List String × List α)
  | i, .pos v :: r =>
    if existsNamed then
      match inputs[i]? with
      | some n => (posLoop inputs existsNamed (i + 1) r).map fun p => (n :: p.1, v :: p.2)
      | none => none
    else (posLoop inputs existsNamed (i + 1) r).map fun p => (p.1, v :: p.2)
  | _, .named n v :: r => namedLoop (.named n v :: r)
  | _, [] => namedLoop []

/-- `/repo/lib/Codegen/Lowering/CallLowerer.cpp:182-247` (`lowerCustomFunctionArgs`) and `259-319`
(`lowerRecordConstructorArgs`): the names and the values of the arguments. -/
def lowerArgs {α : Type} (inputs : List String) (args : List (Arg α)) : Option (List String × List α) :=
  posLoop inputs (args.any Arg.isNamed) 0 args

/-- `/repo/lib/Codegen/Lowering/CallLowerer.cpp:24-66`: the operands of the `CallOp`, which is made without names; their number
must be that of the parameters (51-56). -/
def lowerCall {α : Type} (inputs : List Input) (args : List (Arg α)) : Out (List α) :=
  match lowerArgs (inputs.map Input.name) args with
  | none => .undef
  | some p => if p.2.length ≠ inputs.length then .error else .ok p.2

/-- `/repo/lib/Codegen/Lowering/CallLowerer.cpp:78-97` and `249-257`: the operands of the `RecordCreateOp`; `components` has the
names of the variables of the record and whether they are inputs. -/
def lowerRecord {α : Type} (components : List (String × Bool)) (args : List (Arg α)) : Out (List α) :=
  match lowerArgs ((components.filter fun c => c.2).map Prod.fst) args with
  | none => .undef
  | some p => .ok p.2

/-- `/repo/lib/Dialect/BaseModelica/Transforms/RecordInlining.cpp:985-994`: the values of the components of a `RecordCreateOp`.
`op.getValues()[component.index()]` is undefined when there are fewer operands than components. -/
def unpackRecord {α : Type} (components : List (String × Bool)) (vals : List α) : Out (List α) :=
  if vals.length < components.length then .undef else .ok (vals.take components.length)

/-- Both. -/
def constructRecord {α : Type} (components : List (String × Bool)) (args : List (Arg α)) : Out (List α) :=
  match lowerRecord components args with
  | .ok vals => unpackRecord components vals
  | .error => .error
  | .undef => .undef

/-! ### The casts -/

/-- A `CallOp`: its names, if specified, and its operands. -/
structure Call (α : Type) where
  names : Option (List String)
  args : List (Value α)
deriving DecidableEq

/-- `/repo/lib/Dialect/BaseModelica/Transforms/ExplicitCastInsertion.cpp:174-190`: the calls that remain as they are; the
assertion on the number of arguments is compiled out. -/
def legal {α : Type} (types : List Ty) (args : List (Value α)) : Bool :=
  (args.zip types).all fun p => p.1.ty == p.2

/-- `/repo/lib/Dialect/BaseModelica/Transforms/ExplicitCastInsertion.cpp:60-79`: an argument for which the pattern applies. -/
def compatible {α : Type} (v : Value α) (t : Ty) : Bool :=
  match v.ty.arrayRank, t.arrayRank with
  | none, none => true
  | some r, some r' => r == r'
  | _, _ => false

/-- `/repo/lib/Dialect/BaseModelica/Transforms/ExplicitCastInsertion.cpp:84-94`: the new argument. -/
def castTo {α : Type} (v : Value α) (t : Ty) : Value α :=
  if v.ty = t then v
  else if v.ty.arrayRank.isSome then .arrayCast t v else .cast t v

/-- `/repo/lib/Dialect/BaseModelica/Transforms/ExplicitCastInsertion.cpp:50-100` (`CallOpScalarPattern`), and the failure of the
conversion where it does not apply (209-214). The new call has no names (96-97). -/
def insertCasts {α : Type} (types : List Ty) (c : Call α) : Out (Call α) :=
  if legal types c.args then .ok c
  else if (c.args.zip types).all fun p => compatible p.1 p.2 then
    .ok ⟨none, (c.args.zip types).map fun p => castTo p.1 p.2⟩
  else .error

/-- `/repo/lib/Dialect/BaseModelica/Transforms/ExplicitCastInsertion.cpp:109-126` and `192-198` (`SubscriptionOpPattern`): the
indices of a subscription. -/
def castIndices {α : Type} (idx : List (Value α)) : List (Value α) :=
  idx.map fun v => if v.ty = .scalar .index then v else .cast (.scalar .index) v

/-- `/repo/lib/Dialect/BaseModelica/Transforms/ExplicitCastInsertion.cpp:132-140` and `200-203` (`ConditionOpPattern`): the
condition of an `if` or of a `while`. -/
def castCondition {α : Type} (v : Value α) : Value α :=
  if v.ty = .scalar .boolean then v else .cast (.scalar .boolean) v

/-- The front end and the pass, one after the other: the operands that the function receives. -/
def compileCall {α : Type} (inputs : List Input) (args : List (Arg (Value α))) : Out (List (Value α)) :=
  match lowerCall inputs args with
  | .ok vals =>
    match insertCasts (inputs.map Input.ty) ⟨none, vals⟩ with
    | .ok c => .ok c.args
    | .error => .error
    | .undef => .undef
  | .error => .error
  | .undef => .undef

end Marco.CallArgs
