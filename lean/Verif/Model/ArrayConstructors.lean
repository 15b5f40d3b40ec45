import Verif.Model.Statements

/-!
# Model of the lowering of array constructors (`/repo/lib/Codegen/Lowering/ArrayGeneratorLowerer.cpp`)

`{a, b, c}` and `{e for i in 1:n, j in 1:m}`, nested in each other. The elements are expressions with a scalar value
(see `Verif/Model/Statements.lean`) or variables that are arrays. The arguments of a range are constants, which the
code asserts; lists of 2^32 elements or more are left out (the counter of line 146 has 32 bits).
-/

namespace Marco.Arrays
open Marco.Stmts

/-- An iteration variable and the arguments of its range, in the order of the source. -/
structure GenIndex where
  name : String
  first : Int
  second : Int
  third : Option Int

/-- Expressions (`false`) and lists of expressions (`true`): include/marco/AST/BaseModelica/ArrayConstant.h and
ArrayForGenerator.h; everything else is a leaf. -/
inductive Arr : Bool → Type where
  | leaf (e : Ex) : Arr false
  | whole (x : String) (shape : List Nat) : Arr false
  | arr (cs : Arr true) : Arr false
  | gen (is : List GenIndex) (v : Arr false) : Arr false
  | nil : Arr true
  | cons (a : Arr false) (as : Arr true) : Arr true

/-- The elements of a list of expressions. -/
def Arr.toList : {l : Bool} → Arr l → List (Arr false)
  | _, .nil => []
  | _, .cons a as => a :: as.toList
  | _, .leaf _ => []
  | _, .whole _ _ => []
  | _, .arr _ => []
  | _, .gen _ _ => []

/-- A lowered leaf: a scalar, or the value of an array variable. -/
inductive Elem where
  | scalar (e : IrEx)
  | array (x : String) (shape : List Nat)

/-- `TensorFromElementsOp` and `TensorBroadcastOp`. -/
inductive Tensor where
  | fromElements (shape : List Int) (es : List Elem)
  | broadcast (shape : List Int) (e : Elem)

/-- ArrayGeneratorLowerer.cpp:59-94: the end of the range, if it starts from 1 with step 1; an assertion fails
otherwise. -/
def indexEnd (i : GenIndex) : Low Int :=
  match i.third with
  | none => if i.first = 1 then .ok i.second else .ub
  | some e => if i.first = 1 ∧ i.second = 1 then .ok e else .ub

/-- ArrayGeneratorLowerer.cpp:47-95, the dimensions of a generator, given in the order they are visited (the last
index first). -/
def ends : List GenIndex → Low (List Int)
  | [] => .ok []
  | i :: is => do
    let e ← indexEnd i
    let es ← ends is
    pure (e :: es)

/-- ArrayGeneratorLowerer.cpp:22-103: the dimensions, from the first element of each list. -/
def computeShape : {l : Bool} → Arr l → Low (List Int)
  | _, .leaf _ => .ok []
  | _, .whole _ _ => .ok []
  | _, .arr cs => do
    let r ← computeShape cs
    pure (cs.toList.length :: r)
  | _, .gen is v => do
    let es ← ends is.reverse
    let r ← computeShape v
    pure (es ++ r)
  | _, .nil => .ok []
  | _, .cons a _ => computeShape a

/-- ArrayGeneratorLowerer.cpp:131-141: the last argument of a range. -/
def lastArg (i : GenIndex) : Int := i.third.getD i.second

/-- ArrayGeneratorLowerer.cpp:123-144: how many times the value of a generator is repeated. -/
def copies (is : List GenIndex) : Nat := (is.foldl (fun n i => n * lastArg i) 1).toNat

/-- The number of nodes that are visited (used for the termination of `collect`). -/
def weight : {l : Bool} → Arr l → Nat
  | _, .leaf _ => 1
  | _, .whole _ _ => 1
  | _, .arr cs => 1 + weight cs
  | _, .gen is v => 1 + copies is * weight v
  | _, .nil => 0
  | _, .cons a as => weight a + weight as

theorem weight_toList : ∀ cs : Arr true, (cs.toList.map fun a => weight a).sum = weight cs
  | .nil => by simp [Arr.toList, weight]
  | .cons a as => by simp [Arr.toList, weight, weight_toList as]

/-- ArrayGeneratorLowerer.cpp:113-152: the traversal with two stacks, whose tops are the heads of the lists. The
result is the stack `s2`. -/
def collect (s1 s2 : List (Arr false)) : List (Arr false) :=
  match s1 with
  | [] => s2
  | .arr cs :: s1 => collect (cs.toList.reverse ++ s1) s2
  | .gen is v :: s1 => collect (List.replicate (copies is) v ++ s1) s2
  | .leaf e :: s1 => collect s1 (.leaf e :: s2)
  | .whole x sh :: s1 => collect s1 (.whole x sh :: s2)
termination_by (s1.map fun a => weight a).sum
decreasing_by
  · simp only [List.map_append, List.map_reverse, List.sum_append, List.sum_reverse, weight_toList, List.map_cons,
      List.sum_cons, weight]
    omega
  · simp only [List.map_append, List.map_replicate, List.sum_append, List.map_cons, List.sum_cons, weight,
      List.sum_replicate_nat]
    omega
  · simp only [List.map_cons, List.sum_cons, weight]; omega
  · simp only [List.map_cons, List.sum_cons, weight]; omega

/-- The lowering of a leaf. -/
def lowerLeaf (Γ : Scope) : Arr false → Low Elem
  | .leaf e => do
    let e ← lowerEx Γ e
    pure (.scalar e)
  | .whole x sh => if x ∈ Γ.vars then .ok (.array x sh) else .error
  | .arr _ => .ub
  | .gen _ _ => .ub

/-- ArrayGeneratorLowerer.cpp:154-162: the leaves are lowered from the top of the second stack. -/
def lowerLeaves (Γ : Scope) : List (Arr false) → Low (List Elem)
  | [] => .ok []
  | a :: as => do
    let e ← lowerLeaf Γ a
    let es ← lowerLeaves Γ as
    pure (e :: es)

/-- ArrayGeneratorLowerer.cpp:105-165. -/
def lowerValues (Γ : Scope) (a : Arr false) : Low (List Elem) := lowerLeaves Γ (collect [a] [])

/-- ArrayGeneratorLowerer.cpp:11-20, 167-232. -/
def lowerArray (Γ : Scope) (a : Arr false) : Low Tensor :=
  match a with
  | .arr cs => do
    let shape ← computeShape (.arr cs)
    let values ← lowerValues Γ (.arr cs)
    pure (.fromElements shape values)
  | .gen is v => do
    let shape ← computeShape (.gen is v)
    match v with
    | .leaf _ | .whole _ _ =>
      let e ← lowerLeaf Γ v
      pure (.broadcast shape e)
    | _ =>
      let values ← lowerValues Γ (.gen is v)
      pure (.fromElements shape values)
  | .leaf _ => .ub
  | .whole _ _ => .ub

end Marco.Arrays
