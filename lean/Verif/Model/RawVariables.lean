/-! # The variables of functions in memory

Model of how the variables of a function that are not inputs are declared (`/repo/lib/Codegen/Lowering/ClassLowerer.cpp`) and
brought into memory (`/repo/lib/Codegen/Conversion/BaseModelicaToFunc/BaseModelicaToFunc.cpp`, the pass
`BaseModelicaRawVariablesConversionPass`), and of the memory accesses of the operations that the pass creates.

A buffer has sizes and elements by rows; a buffer that has been released, or an access outside of a buffer, gives undefined
behaviour. Whether a buffer is on the heap or on the stack (`createReference`) is left out, as are the types of the elements. -/

namespace Marco.RawVars

/-- A dimension in the source: `/repo/include/marco/AST/BaseModelica/ArrayDimension.h:14-16`: a number, `-1` for `:`, or an
expression, here with the value that it has when the variable is created. -/
inductive Dim where
  | num (n : Int)
  | expr (n : Nat)
deriving DecidableEq

/-- `/repo/lib/AST/BaseModelica/ArrayDimension.cpp:47-49` (`hasExpression`). -/
def Dim.hasExpression : Dim → Bool
  | .num _ => false
  | .expr _ => true

/-- `/repo/lib/AST/BaseModelica/ArrayDimension.cpp:51-53` (`isDynamic`). -/
def Dim.isDynamic : Dim → Bool
  | .num n => n == -1
  | .expr _ => true

/-- `/repo/lib/Codegen/Lowering/ClassLowerer.cpp:135-143`: the size in the type; `none` is `kDynamic`. Numbers other than `-1` are
natural in the source. -/
def shapeOf (d : Dim) : Option Nat :=
  if d.isDynamic then none
  else match d with
    | .num n => some n.toNat
    | .expr _ => none

/-- The constraint of a dynamic dimension: `/repo/include/marco/Dialect/BaseModelica/IR/Ops.td:1187-1188`. -/
inductive Constraint where
  | unbounded | fixed
deriving DecidableEq

/-- `/repo/lib/Codegen/Lowering/ClassLowerer.cpp:72-91`: the constraints of the variable. -/
def constraints (dims : List Dim) : List Constraint :=
  (dims.filter Dim.isDynamic).map fun d => if d.hasExpression then .fixed else .unbounded

/-- `/repo/lib/Codegen/Lowering/ClassLowerer.cpp:296-312`: the size that a dimension yields. -/
def sizeOf : Dim → Option Nat
  | .num _ => none
  | .expr n => some n

/-- `/repo/lib/Codegen/Lowering/ClassLowerer.cpp:277-319` (`lowerVariableDimensionConstraints`): the sizes that the region of the
constraints yields; there is no region without fixed dimensions. -/
def yielded (dims : List Dim) : List Nat :=
  if (constraints dims).count .fixed = 0 then [] else dims.filterMap sizeOf

/-- `/repo/lib/Dialect/BaseModelica/IR/Ops.cpp:1439-1460` (`VariableOp::verify`). -/
def verify (dims : List Dim) : Bool := (constraints dims).count .fixed == (yielded dims).length

/-- The ways in which a variable is kept: as a scalar, as one buffer, or as a pointer to the buffer in use
(`/repo/lib/Codegen/Conversion/BaseModelicaToFunc/BaseModelicaToFunc.cpp:799`, `871`, `938`). -/
inductive Kind where
  | scalar | buffer | pointer
deriving DecidableEq

/-- The sizes of the first buffer of a pointer: `/repo/lib/Codegen/Conversion/BaseModelicaToFunc/BaseModelicaToFunc.cpp:1020-1029`
(`getZeroedDynDimsMemRefShap`). -/
def zeroed (s : Option Nat) : Nat := s.getD 0

/-- `/repo/lib/Codegen/Conversion/BaseModelicaToFunc/BaseModelicaToFunc.cpp:1104-1121` (`convertVariable`): the kind of the variable and
the sizes of its first buffer. `none`: the allocation is given no sizes for the dynamic dimensions of its type (904-915), and the
verification of the operation fails. -/
def create (dims : List Dim) : Option (Kind × List Nat) :=
  if (dims.map shapeOf).isEmpty then some (.scalar, [])
  else if (yielded dims).length = (dims.map shapeOf).count none then
    if (dims.map shapeOf).count none = 0 then some (.buffer, (dims.map shapeOf).map zeroed) else none
  else some (.pointer, (dims.map shapeOf).map zeroed)

/-- The contents of a buffer: sizes and elements (`/repo/lib/Codegen/Conversion/BaseModelicaToFunc/BaseModelicaToFunc.cpp:878-882`). -/
structure Arr (V : Type) where
  sizes : List Nat
  elems : List V

/-- A variable in memory: its kind and the buffer that it has, or that its pointer holds
(`/repo/lib/Codegen/Conversion/BaseModelicaToFunc/BaseModelicaToFunc.cpp:881-882`, `957-982`). -/
structure Ref where
  kind : Kind
  buf : Nat

/-- The state: the buffers (`none`: released), the variables, and the values of the operations done so far, each in a buffer
(the operands at `/repo/lib/Codegen/Conversion/BaseModelicaToFunc/BaseModelicaToFunc.cpp:930`, `1067`). -/
structure State (V : Type) where
  mem : List (Option (Arr V))
  env : List Ref
  regs : List Nat

/-- The operations: the reading of a variable, any operation that makes a new value, the assignment of value `r` to a variable,
the assignment of an element of a variable in place, and the reading of value `r`
(`/repo/lib/Codegen/Conversion/BaseModelicaToFunc/BaseModelicaToFunc.cpp:985-1014`). -/
inductive Op (V : Type) where
  | get (x : Nat)
  | make (a : Arr V)
  | set (x r : Nat)
  | store (x k : Nat) (v : V)
  | use (r : Nat)

/-- The contents of a buffer; `none`: undefined behaviour
(`/repo/lib/Codegen/Conversion/BaseModelicaToFunc/BaseModelicaToFunc.cpp:851-852`). -/
def State.load {V : Type} (s : State V) (b : Nat) : Option (Arr V) := (s.mem[b]?).join

/-- A value in a buffer of its own (`/repo/lib/Codegen/Conversion/BaseModelicaToFunc/BaseModelicaToFunc.cpp:851-854`). -/
def State.push {V : Type} (s : State V) (a : Arr V) : State V :=
  { s with mem := s.mem ++ [some a], regs := s.regs ++ [s.mem.length] }

/-- `/repo/lib/Codegen/Conversion/BaseModelicaToFunc/BaseModelicaToFunc.cpp:845-856`, `917-922`, `1031-1050` (`convertGetOp`): a scalar is
loaded; an array is not copied. -/
def get {V : Type} (s : State V) (x : Nat) : Option (State V) :=
  match s.env[x]? with
  | none => none
  | some ref =>
    if ref.kind = .scalar then (s.load ref.buf).map s.push else some { s with regs := s.regs ++ [ref.buf] }

/-- `/repo/lib/Codegen/Conversion/BaseModelicaToFunc/BaseModelicaToFunc.cpp:858-868`, `924-935`, `1052-1100` (`convertSetOp`): a scalar is
stored; an array is copied into the buffer, which must have the same sizes; for a pointer, the value is copied into a new buffer, the
previous one is released, and the pointer is changed. `a` is the contents of the value. -/
def assign {V : Type} (s : State V) (x : Nat) (ref : Ref) (a : Arr V) : Option (State V) :=
  match s.load ref.buf with
  | none => none
  | some old =>
    if ref.kind = .pointer then
      some { s with mem := (s.mem ++ [some a]).set ref.buf none, env := s.env.set x { ref with buf := s.mem.length } }
    else if old.sizes = a.sizes then some { s with mem := s.mem.set ref.buf (some a) } else none

/-- The assignment of value `r` (`/repo/lib/Codegen/Conversion/BaseModelicaToFunc/BaseModelicaToFunc.cpp:818-822`, `890-894`, `995-999`). -/
def set {V : Type} (s : State V) (x r : Nat) : Option (State V) :=
  match s.env[x]?, (s.regs[r]?).bind s.load with
  | some ref, some a => assign s x ref a
  | _, _ => none

/-- The assignment of an element (`/repo/lib/Codegen/Conversion/BaseModelicaToCF/BaseModelicaToCF.cpp:351-365`): the variable is read, the
element is written into the buffer in place, and the buffer is assigned to the variable. -/
def store {V : Type} (s : State V) (x k : Nat) (v : V) : Option (State V) :=
  match s.env[x]? with
  | none => none
  | some ref =>
    match s.load ref.buf with
    | none => none
    | some a =>
      if k < a.elems.length then
        assign { s with mem := s.mem.set ref.buf (some { a with elems := a.elems.set k v }) } x ref
          { a with elems := a.elems.set k v }
      else none

/-- One operation, with what it shows (`/repo/lib/Codegen/Conversion/BaseModelicaToFunc/BaseModelicaToFunc.cpp:985-1014`: the users of the
variable are converted one by one). -/
def step {V : Type} (s : State V) : Op V → Option (State V × List (Arr V))
  | .get x => (get s x).map fun t => (t, [])
  | .make a => some (s.push a, [])
  | .set x r => (set s x r).map fun t => (t, [])
  | .store x k v => (store s x k v).map fun t => (t, [])
  | .use r => ((s.regs[r]?).bind s.load).map fun a => (s, [a])

/-- All the operations of an execution, one after the other (`/repo/lib/Codegen/Conversion/BaseModelicaToFunc/BaseModelicaToFunc.cpp:768-784`);
`none`: undefined behaviour. -/
def run {V : Type} : State V → List (Op V) → Option (List (Arr V))
  | _, [] => some []
  | s, o :: os =>
    match step s o with
    | none => none
    | some (t, out) =>
      match run t os with
      | none => none
      | some rest => some (out ++ rest)

/-- The state after the variables have been created, each with a buffer
(`/repo/lib/Codegen/Conversion/BaseModelicaToFunc/BaseModelicaToFunc.cpp:809-810`, `881-882`, `957-982`). -/
def start {V : Type} (vars : List (Kind × Arr V)) : State V :=
  { mem := vars.map fun v => some v.2
    env := vars.zipIdx.map fun p => ⟨p.1.1, p.2⟩
    regs := [] }

end Marco.RawVars
