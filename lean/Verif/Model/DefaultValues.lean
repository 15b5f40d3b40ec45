import Verif.Model.PostOrder

/-! # Default values of the variables of functions

Model of `VariablesDependencyGraph` (IR/VariablesDependencyGraph.cpp), of its two instances, and of the
pass `FunctionDefaultValuesConversion`: the arguments missing from a call are computed from the default
values of the input variables; the default values of the other variables become assignments at the
beginning of the function.

Names are numbers. The operations of a body have one result each, and the result of the operation in
position `i` is the value `i`; operations other than `variable_get` are opaque, apart from their
operands and the variables read inside their regions. -/

namespace Marco.Defaults
open Marco.PostOrder

/-! ### The graph of the variables -/

/-- VariablesDependencyGraph.h:10-23: the entry node (graph set, no variable), a variable, or the node
made by the default constructor (VariablesDependencyGraph.cpp:8), without graph and variable. -/
inductive Node where
  | entry
  | var (x : Nat)
  | null
deriving DecidableEq

/-- The variables added to the graph (VariablesDependencyGraph.cpp:45-54), the dependencies of each
(`getDependencies`), and the addresses of the operations. -/
structure Graph where
  nodes : List Nat
  deps : Nat → List Nat
  addr : Nat → Nat

/-- VariablesDependencyGraph.cpp:22-32, `Node::operator<`. -/
def Graph.lt (g : Graph) : Node → Node → Bool
  | .var x, .var y => g.addr x < g.addr y
  | .var _, _ => false
  | _, _ => true

/-- Insertion in a `std::set`, as a list in the order of the iteration. -/
def Graph.insert (g : Graph) (x : Node) : List Node → List Node
  | [] => [x]
  | y :: ys =>
    if g.lt x y then x :: y :: ys else if g.lt y x then y :: g.insert x ys else y :: ys

/-- VariablesDependencyGraph.cpp:72: `nodesByName[dependency]`, which makes a new node when there is no
variable with that name. -/
def Graph.nodeOf (g : Graph) (d : Nat) : Node := if g.nodes.contains d then .var d else .null

/-- VariablesDependencyGraph.cpp:84-98, `childrenBegin` and `childrenEnd`, on the arcs collected at
lines 56-75; `none`: they are called on a null graph (VariablesDependencyGraph.h:121-127). -/
def Graph.children (g : Graph) : Node → Option (List Node)
  | .entry => some (g.nodes.foldl (fun s x => g.insert (.var x) s) [])
  | .var x => some ((g.deps x).foldl (fun s d => g.insert (g.nodeOf d) s) [])
  | .null => none

/-- The outcomes: a result, undefined behaviour, or the bound on the steps reached. -/
inductive Out (β : Type) where
  | done (b : β)
  | crash
  | fuel
deriving DecidableEq

/-- `llvm::post_order_ext` (see `PostOrder.step`): the children of a node are asked for when the node
is pushed. -/
def Graph.visit (g : Graph) : Nat → St Node → Out (List Node)
  | 0, _ => .fuel
  | k + 1, s =>
    match s.stack with
    | [] => .done s.out
    | (n, []) :: st => g.visit k ⟨st, s.visited, s.out ++ [n]⟩
    | (n, c :: cs) :: st =>
      if s.visited.contains c then g.visit k ⟨(n, cs) :: st, s.visited, s.out⟩
      else
        match g.children c with
        | none => .crash
        | some l => g.visit k ⟨(c, l) :: (n, cs) :: st, c :: s.visited, s.out⟩

/-- A number of steps sufficient for the visit. -/
def Graph.steps (g : Graph) : Nat :=
  ((Node.entry :: Node.null :: g.nodes.map Node.var).map fun n =>
    ((g.children n).getD []).length + 1).sum + 1

def Node.name? : Node → Option Nat
  | .var x => some x
  | _ => none

/-- VariablesDependencyGraph.cpp:123-136, `postOrder`; the assertion on the cycles is compiled out. -/
def Graph.order (g : Graph) : Out (List Nat) :=
  match g.visit g.steps ⟨[(.entry, (g.children .entry).getD [])], [.entry], []⟩ with
  | .done l => .done (l.filterMap Node.name?)
  | .crash => .crash
  | .fuel => .fuel

/-! ### Functions -/

/-- An operation of a body: a `variable_get`, or another one with its operands and the variables read
inside its regions. -/
inductive Op where
  | get (x : Nat)
  | app (f : Nat) (args reads : List Nat)
deriving DecidableEq

/-- The variables read by an operation, at any depth. -/
def Op.reads : Op → List Nat
  | .get x => [x]
  | .app _ _ rs => rs

/-- The body of a `DefaultOp`: its operations and the operand of the `YieldOp`. -/
structure Body where
  ops : List Op
  result : Nat
deriving DecidableEq

/-- A variable of a function; `dims` are the operations of its constraints region, which computes the
dynamic dimensions. -/
structure Var where
  name : Nat
  input : Bool
  dims : List Op
deriving DecidableEq

/-- A `FunctionOp`: its variables in the order of declaration, and its default values. -/
structure Fn where
  vars : List Var
  defaults : List (Nat × Body)

/-- FunctionDefaultValuesConversion.cpp:138-144 and :278-284: the input variables. -/
def Fn.inputs (f : Fn) : List Nat := (f.vars.filter fun v => v.input).map fun v => v.name

/-- The last value associated with a name. -/
def find {β : Type} (l : List (Nat × β)) (x : Nat) : Option β :=
  l.foldl (fun r p => if p.1 = x then some p.2 else r) none

/-- DefaultValuesDependencyGraph.cpp:8-26: the variables read by the default value of a variable, at
any depth. Duplicates and order are immaterial, since the names are put in a set. -/
def defaultDeps (defaults : List (Nat × Body)) (x : Nat) : List Nat :=
  match find defaults x with
  | some b => b.ops.flatMap Op.reads
  | none => []

/-- FunctionDefaultValuesConversion.cpp:271-291: the order of computation of the default values of the
input variables. -/
def inputOrder (f : Fn) (addr : Nat → Nat) : Out (List Nat) :=
  Graph.order ⟨f.inputs, defaultDeps f.defaults, addr⟩

/-! ### Missing arguments -/

/-- A `CallOp`: the names of the arguments, if specified, and the values of the arguments. -/
structure Call where
  names : Option (List Nat)
  args : List Nat
deriving DecidableEq

/-- FunctionDefaultValuesConversion.cpp:84-102, `hasMissingArgs`. -/
def hasMissingArgs (f : Fn) (c : Call) : Bool := c.args.length != f.inputs.length

/-- FunctionDefaultValuesConversion.cpp:104-125, the loop of `cloneDefaultOpBody`: `mapping` has the
values that correspond to the results of the operations visited so far, `next` is the first free
value. `none`: undefined behaviour (a variable or an operand without a value). -/
def cloneOps (vars : List (Nat × Nat)) : Nat → List Nat → List Op → Option (List Op × List Nat)
  | _, mapping, [] => some ([], mapping)
  | next, mapping, .get x :: ops =>
    match find vars x with
    | some v => cloneOps vars next (mapping ++ [v]) ops
    | none => none
  | next, mapping, .app f args reads :: ops =>
    match args.mapM fun a => mapping[a]? with
    | some args' =>
      (cloneOps vars (next + 1) (mapping ++ [next]) ops).map
        fun r => (.app f args' reads :: r.1, r.2)
    | none => none

/-- FunctionDefaultValuesConversion.cpp:104-125, `cloneDefaultOpBody`: the operations created and the
value of the result. -/
def cloneBody (vars : List (Nat × Nat)) (next : Nat) (b : Body) : Option (List Op × Nat) :=
  match cloneOps vars next [] b.ops with
  | some (ops, mapping) => (mapping[b.result]?).map fun v => (ops, v)
  | none => none

/-- FunctionDefaultValuesConversion.cpp:165-176 and :192-203: the default values of the variables
accepted by `missing`, in the given order. The variables with a value and the operations created.
`none`: undefined behaviour, as above or because there is no default value (lines 169 and 196). -/
def fillLoop (defaults : List (Nat × Body)) (missing : List (Nat × Nat) → Nat → Bool) :
    List Nat → List (Nat × Nat) → Nat → Option (List (Nat × Nat) × List Op)
  | [], vars, _ => some (vars, [])
  | x :: xs, vars, next =>
    if missing vars x then
      match find defaults x with
      | some b =>
        match cloneBody vars next b with
        | some (ops, v) =>
          (fillLoop defaults missing xs (vars ++ [(x, v)]) (next + ops.length)).map
            fun r => (r.1, ops ++ r.2)
        | none => none
      | none => none
    else fillLoop defaults missing xs vars next

/-- FunctionDefaultValuesConversion.cpp:127-217, `fillCallArgs`: the operations created before the
call, and the new call. -/
def fillCall (f : Fn) (order : List Nat) (next : Nat) (c : Call) : Option (List Op × Call) :=
  let filled :=
    match c.names with
    | some ns =>
      fillLoop f.defaults (fun vars x => (find vars x).isNone) order (ns.zip c.args) next
    | none =>
      if f.inputs.length < c.args.length then none
      else
        fillLoop f.defaults (fun _ x => (f.inputs.drop c.args.length).contains x) order
          (f.inputs.zip c.args) next
  match filled with
  | some (vars, ops) => (f.inputs.mapM fun x => find vars x).map fun args => (ops, ⟨none, args⟩)
  | none => none

/-- FunctionDefaultValuesConversion.cpp:261-313, `convertInputDefaultValues`, for one call of a
function; `next` is the number of values that precede the call. -/
def convertCall (f : Fn) (addr : Nat → Nat) (next : Nat) (c : Call) : Out (List Op × Call) :=
  match inputOrder f addr with
  | .done order =>
    if hasMissingArgs f c then
      match fillCall f order next c with
      | some r => .done r
      | none => .crash
    else .done ([], c)
  | .crash => .crash
  | .fuel => .fuel

/-! ### Protected and output variables -/

/-- A statement of the body of the function: an operation, or a `variable_set`. -/
inductive Stm where
  | op (o : Op)
  | set (x v : Nat)
deriving DecidableEq

/-- FunctionDefaultValuesConversion.cpp:355-365: copy of the operations of a default value. `none`: an
operand without a value. -/
def copyOps : Nat → List Nat → List Op → Option (List Op × List Nat)
  | _, mapping, [] => some ([], mapping)
  | next, mapping, .get x :: ops =>
    (copyOps (next + 1) (mapping ++ [next]) ops).map fun r => (.get x :: r.1, r.2)
  | next, mapping, .app f args reads :: ops =>
    match args.mapM fun a => mapping[a]? with
    | some args' =>
      (copyOps (next + 1) (mapping ++ [next]) ops).map fun r => (.app f args' reads :: r.1, r.2)
    | none => none

/-- FunctionDefaultValuesConversion.cpp:348-367: the assignments, in the given order. -/
def assignments (defaults : List (Nat × Body)) : List Nat → Nat → Option (List Stm)
  | [], _ => some []
  | x :: xs, next =>
    match find defaults x with
    | some b =>
      match copyOps next [] b.ops with
      | some (ops, mapping) =>
        match mapping[b.result]? with
        | some v =>
          (assignments defaults xs (next + ops.length)).map
            fun r => ops.map Stm.op ++ .set x v :: r
        | none => none
      | none => none
    | none => assignments defaults xs next

/-- FunctionDefaultValuesConversion.cpp:326-333: the default values of the variables that are not
inputs, in the order of the `DefaultOp`s. -/
def Fn.ownDefaults (f : Fn) : List (Nat × Body) :=
  f.defaults.filter fun d => !f.inputs.contains d.1

/-- FunctionDefaultValuesConversion.cpp:315-370, `convertProtectedAndOutputDefaultValues`: the
statements put at the beginning of the first algorithm. -/
def prologue (f : Fn) (addr : Nat → Nat) : Out (List Stm) :=
  match Graph.order ⟨f.ownDefaults.map Prod.fst, defaultDeps f.ownDefaults, addr⟩ with
  | .done order =>
    match assignments f.ownDefaults order 0 with
    | some l => .done l
    | none => .crash
  | .crash => .crash
  | .fuel => .fuel

/-! ### Dimensions -/

/-- VariablesDimensionsDependencyGraph.cpp:7-24, `getDependencies`: the variables read by the
operations of the constraints region, without looking inside their regions. -/
def dimDeps (f : Fn) (x : Nat) : List Nat :=
  match f.vars.find? fun v => v.name = x with
  | some v => v.dims.flatMap fun
    | .get y => [y]
    | .app _ _ _ => []
  | none => []

/-- BaseModelicaToCF.cpp:192-210: the order of creation of the output and protected variables (added
in two groups; the order of insertion is immaterial). -/
def creationOrder (f : Fn) (addr : Nat → Nat) : Out (List Nat) :=
  Graph.order ⟨(f.vars.filter fun v => !v.input).map fun v => v.name, dimDeps f, addr⟩

end Marco.Defaults
