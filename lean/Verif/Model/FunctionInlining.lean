/-!
# Model of the inlining of functions (`/repo/lib/Dialect/BaseModelica/Transforms/PureFunctionInlining.cpp`)

The names of variables are numbers, and so are the values of a function (the results of its operations). Operations have
at most one result. Record components, and the choice of the functions that do not take part in a recursion (lines
18-227), are left out. The order in which the default values are copied (lines 272-573) is given.
-/

namespace Marco.Inline

/-- An operation in the body of a function or of a default value. -/
inductive Op where
  /-- `VariableGetOp` -/
  | get (res var : Nat)
  /-- `VariableSetOp` with its subscripts (Ops.td:1280-1283) -/
  | set (var : Nat) (subs : List Nat) (val : Nat)
  /-- Any other operation: its kind, its operands, and the variables read and assigned inside its regions. -/
  | pure (res kind : Nat) (args reads sets : List Nat)
  /-- `ReturnOp` -/
  | ret
  deriving DecidableEq, Repr

/-- The region of a default value: its operations and the yielded value. -/
structure Region where
  ops : List Op
  yielded : Nat
  deriving DecidableEq, Repr

/-- A function. -/
structure Function where
  inputs : List Nat
  outputs : List Nat
  /-- the default values, of any variable -/
  default : Nat → Option Region
  algorithms : List (List Op)
  /-- the attribute `inline` -/
  marked : Bool

/-- PureFunctionInlining.cpp:229-270. -/
def canBeInlined (f : Function) : Bool :=
  f.marked && f.algorithms.length == 1 && f.algorithms.all fun a => a.all fun
    | .pure _ _ _ _ sets => sets.isEmpty
    | _ => true

/-- A value in the caller: an argument of the call, or the result of a copied operation. -/
inductive Val where
  | arg (i : Nat)
  | new (n : Nat)
  deriving DecidableEq, Repr

/-- A copied operation; the `n`-th one has the result `new n`. It gets variables of the caller. -/
inductive NOp where
  | get (var : Nat)
  | pure (kind : Nat) (args : List Val) (reads : List Nat)
  | ret
  deriving DecidableEq, Repr

/-- The operations copied so far, the `IRMapping` and the `varMapping`; a null value is `none`. -/
structure St where
  ops : List NOp
  mapping : Nat → Option Val
  vars : Nat → Option Val

/-- Assignment in a map. -/
def upd {α : Type} (m : Nat → Option α) (x : Nat) (v : Option α) : Nat → Option α := fun y => if y = x then v else m y

/-- `builder.clone`: the operands are mapped, the regions are copied as they are. `none`: a null operand, or an operation
that does not belong in the place. -/
def clone (s : St) : Op → Option St
  | .get r x => some { s with ops := s.ops ++ [.get x], mapping := upd s.mapping r (some (.new s.ops.length)) }
  | .pure r k args reads _ => do
    let args ← args.mapM s.mapping
    some { s with ops := s.ops ++ [.pure k args reads], mapping := upd s.mapping r (some (.new s.ops.length)) }
  | .set _ _ _ => none
  | .ret => some { s with ops := s.ops ++ [.ret] }

/-- PureFunctionInlining.cpp:692-710, `cloneBodyOp`. -/
def cloneBodyOp (s : St) : Op → Option St
  | .get r x => some { s with mapping := upd s.mapping r (s.vars x) }
  | .set x _ v => some { s with vars := upd s.vars x (s.mapping v) }
  | op => clone s op

/-- PureFunctionInlining.cpp:743-754: the copy of a default value. -/
def cloneDefault (s : St) (x : Nat) (d : Region) : Option St := do
  let s ← d.ops.foldlM clone s
  some { s with vars := upd s.vars x (s.mapping d.yielded) }

/-- PureFunctionInlining.cpp:735-755. -/
def cloneDefaults (f : Function) (order : List Nat) (s : St) : Option St :=
  order.foldlM (fun s x => match f.default x with
    | some d => cloneDefault s x d
    | none => some s) s

/-- PureFunctionInlining.cpp:768-771: the arguments, by position. `none`: more arguments than inputs. -/
def mapArgs (inputs : List Nat) (s : St) (n : Nat) : Option St :=
  (List.range n).foldlM (fun s i => do
    let x ← inputs[i]?
    some { s with vars := upd s.vars x (some (.arg i)) }) s

/-- PureFunctionInlining.cpp:713-802, for a call with `n` arguments. The copied operations and the values that replace
the results; `none`: undefined behaviour. Without inputs there is no entry in `orderings` (lines 553-573), whose end is
dereferenced. -/
def inlineFunction (f : Function) (order : List Nat) (n : Nat) : Option (List NOp × List (Option Val)) := do
  if f.inputs = [] then none
  let s ← cloneDefaults f order ⟨[], fun _ => none, fun _ => none⟩
  let s ← mapArgs f.inputs s n
  let s ← f.algorithms.flatten.foldlM cloneBodyOp s
  some (s.ops, f.outputs.map s.vars)

end Marco.Inline
