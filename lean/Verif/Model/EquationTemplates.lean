import Verif.Model.EquationSplit

/-!
# Model of the way from the equations of a section to equation instances
(`/repo/lib/Codegen/Lowering/EqualityEquationLowerer.cpp`, `ForEquationLowerer.cpp`,
`/repo/lib/Dialect/BaseModelica/Transforms/EquationSidesSplit.cpp`,
`EquationInductionsExplicitation.cpp`, `EquationTemplatesCreation.cpp`,
`BindingEquationConversion.cpp`)

The expressions are abstract: a value is a function of the enclosing induction variables (outermost
first) and, for arrays, of the subscripts, counted from 0 as in `TensorExtractOp`. The names of the
induction variables are resolved (`insertVariable`, ForEquationLowerer.cpp:69-70). Equations are not
rewritten in place: each pass gives the new list of operations; a section is handled at a time (the
pass collects the loops of all sections before it visits them, which only changes the order).
Integers are unbounded, with the overflows that the code can run into as outcome `none`, as well as
loops that do not end.
-/

namespace Marco.Templ
open Marco Split

/-- The largest `int64_t`. -/
def maxInt : Int := 2 ^ 63 - 1

/-- A dimension of a tensor type: its size, and whether the type has it (`isDynamicDim`). -/
structure Dim where
  size : Nat
  known : Bool

/-- A value on a side of an equation; scalars have no shape. -/
structure Val (α : Type) where
  shape : Option (List Dim)
  elem : Point → Point → α

/-- The range of a `ForIndex`, whose bounds and step are constants
(ForEquationLowerer.cpp:34-62: two or three arguments). -/
inductive ForRange
  | two (first last : Int)
  | three (first step last : Int)

/-- `ast::bmodelica::EqualityEquation` and `ForEquation`, which has at least one index. -/
inductive Eqn (α : Type)
  | equality (lhs rhs : List (Val α))
  | loop (index : ForRange) (indices : List ForRange) (body : List (Eqn α))

/-- The attributes of `ForEquationOp` (Ops.td:3768). -/
structure Loop where
  first : Int
  last : Int
  step : Int

/-- `EquationOp`, by the operands of its `EquationSidesOp`, and `ForEquationOp`. -/
inductive Node (α : Type)
  | equation (lhs rhs : List (Val α))
  | loop (l : Loop) (body : List (Node α))

/-! ### The lowering -/

/-- ForEquationLowerer.cpp:34-66: the attributes of the operation. -/
def attributes : ForRange → Loop
  | .two b e => ⟨b, e, 1⟩
  | .three b s e => ⟨b, e, s⟩

/-- ForEquationLowerer.cpp:24-75: the loops nested into each other. -/
def nest {α : Type} : List Loop → List (Node α) → List (Node α)
  | [], body => body
  | l :: ls, body => [.loop l (nest ls body)]

mutual
/-- EqualityEquationLowerer.cpp:13-61 and ForEquationLowerer.cpp:11-86. -/
def lower {α : Type} : Eqn α → List (Node α)
  | .equality l r => [.equation l r]
  | .loop i is body => nest (attributes i :: is.map attributes) (lowerAll body)
/-- EquationSectionLowerer.cpp:14-44. -/
def lowerAll {α : Type} : List (Eqn α) → List (Node α)
  | [] => []
  | e :: es => lower e ++ lowerAll es
end

/-! ### EquationSidesSplit -/

/-- EquationSidesSplit.cpp:45-57, 66-119: each copy is inserted right after the original. -/
def splitSides {α : Type} (lhs rhs : List (Val α)) : List (Node α) :=
  if lhs.length ≠ 1 ∧ lhs.length = rhs.length then
    ((lhs.zip rhs).map fun (l, r) => .equation [l] [r]).reverse
  else [.equation lhs rhs]

mutual
/-- EquationSidesSplit.cpp:45-68, `processModelOp`. -/
def split {α : Type} : Node α → List (Node α)
  | .equation l r => splitSides l r
  | .loop l body => [.loop l (splitAll body)]
/-- The same, for the operations of a block. -/
def splitAll {α : Type} : List (Node α) → List (Node α)
  | [] => []
  | n :: ns => split n ++ splitAll ns
end

/-! ### EquationInductionsExplicitation -/

/-- EquationInductionsExplicitation.cpp:71-84: the dimensions can be made explicit. -/
def compatible (l r : Dim) : Bool :=
  if !l.known && !r.known then false
  else if !l.known || !r.known then true
  else l.size = r.size

/-- EquationInductionsExplicitation.cpp:113-132: the loop for a dimension. -/
def dimLoop (l r : Dim) : Loop :=
  if !l.known then ⟨0, (r.size : Int) - 1, 1⟩ else ⟨0, (l.size : Int) - 1, 1⟩

/-- EquationInductionsExplicitation.cpp:152-156: the extracted element. The value is a copy, which
refers to the `depth` induction variables that enclosed the original. -/
def extract {α : Type} (depth : Nat) (v : Val α) : Val α :=
  ⟨none, fun env _ => v.elem (env.take depth) (env.drop depth)⟩

/-- EquationInductionsExplicitation.cpp:46-90, 99-176, on one equation inside `depth` loops. -/
def explicitate {α : Type} (depth : Nat) (lhs rhs : List (Val α)) : List (Node α) :=
  match lhs, rhs with
  | [l], [r] =>
    match l.shape, r.shape with
    | some ds, some es =>
      if ds.length = es.length ∧ (ds.zip es).all (fun (d, e) => compatible d e) then
        nest ((ds.zip es).map fun (d, e) => dimLoop d e)
          [.equation [extract depth l] [extract depth r]]
      else [.equation lhs rhs]
    | _, _ => [.equation lhs rhs]
  | _, _ => [.equation lhs rhs]

mutual
/-- EquationInductionsExplicitation.cpp:43-97, `processModelOp`. -/
def explicit {α : Type} (depth : Nat) : Node α → List (Node α)
  | .equation l r => explicitate depth l r
  | .loop l body => [.loop l (explicitAll (depth + 1) body)]
/-- The same, for the operations of a block. -/
def explicitAll {α : Type} (depth : Nat) : List (Node α) → List (Node α)
  | [] => []
  | n :: ns => explicit depth n ++ explicitAll depth ns
end

/-! ### EquationTemplatesCreation -/

/-- EquationTemplatesCreation.cpp:53-56: an equation of a block, with the loops around it
(81-94, `getForEquationOps`). -/
def equationsOf {α : Type} (loops : List Loop) :
    List (Node α) → List (List Loop × List (Val α) × List (Val α))
  | [] => []
  | .equation l r :: ns => (loops, l, r) :: equationsOf loops ns
  | .loop _ _ :: ns => equationsOf loops ns

/-- EquationTemplatesCreation.cpp:58-60: the loops of a block. -/
def loopsOf {α : Type} (loops : List Loop) : List (Node α) → List (List Loop × List (Node α))
  | [] => []
  | .equation _ _ :: ns => loopsOf loops ns
  | .loop l body :: ns => (loops ++ [l], body) :: loopsOf loops ns

mutual
/-- The number of operations in a block, for the recursion of `collect`. -/
def weight {α : Type} : Node α → Nat
  | .equation _ _ => 1
  | .loop _ body => 1 + weights body
/-- The same, for the operations of a block. -/
def weights {α : Type} : List (Node α) → Nat
  | [] => 0
  | n :: ns => weight n + weights ns
end

theorem weights_loopsOf {α : Type} (loops : List Loop) : ∀ ns : List (Node α),
    ((loopsOf loops ns).map fun f => 1 + weights f.2).sum ≤ weights ns
  | [] => by simp [loopsOf]
  | .equation _ _ :: ns => by
    have := weights_loopsOf loops ns
    simp only [loopsOf, weights, weight]; omega
  | .loop _ _ :: ns => by
    have := weights_loopsOf loops ns
    simp only [loopsOf, weights, weight, List.map_cons, List.sum_cons]; omega

/-- EquationTemplatesCreation.cpp:47-63, 167-193: the collected equations. The last loop that was
found is visited first (`pop_back_val`). -/
def collect {α : Type} :
    List (List Loop × List (Node α)) → List (List Loop × List (Val α) × List (Val α))
  | [] => []
  | (loops, body) :: stack =>
    equationsOf loops body ++ collect ((loopsOf loops body).reverse ++ stack)
termination_by stack => (stack.map fun f => 1 + weights f.2).sum
decreasing_by
  have := weights_loopsOf loops body
  simp only [List.map_append, List.sum_append, List.map_reverse, List.sum_reverse, List.map_cons,
    List.sum_cons]
  omega

/-- EquationTemplatesCreation.cpp:151-155: one range for each value. With a step that is negative or
0 the loop does not end before `index` overflows. -/
def stepRanges (step last index : Int) : Option (List Range) :=
  if index < last + 1 then
    if 0 < step ∧ index + step ≤ maxInt then
      (stepRanges step last (index + step)).map (⟨index, index + 1⟩ :: ·)
    else none
  else some []
termination_by (last + 1 - index).toNat
decreasing_by omega

/-- EquationTemplatesCreation.cpp:143-155: the ranges of a loop. -/
def loopRanges (l : Loop) : Option (List Range) :=
  if maxInt < l.last + 1 then none
  else if l.step = 1 then some [⟨l.first, l.last + 1⟩]
  else stepRanges l.step l.last l.first

/-- EquationTemplatesCreation.cpp:96-131, `getRangesCombinations`. -/
def combinations : List (List Range) → List Box
  | [] => []
  | [rs] => rs.map fun r => [r]
  | rs :: rest => rs.flatMap fun r => (combinations rest).map (r :: ·)

/-- EquationTemplatesCreation.cpp:133-162, `getIterationSpace`. The ranges are those given to the
constructor of `IndexSet`. -/
def iterationSpace (loops : List Loop) : Option (List Box) :=
  if loops.isEmpty then some [] else (loops.mapM loopRanges).map combinations

/-- `EquationInstanceOp` and its `EquationTemplateOp`. -/
structure Instance (α : Type) where
  dims : Nat
  ranges : List Box
  lhs : List (Val α)
  rhs : List (Val α)

/-- EquationTemplatesCreation.cpp:195-231: the template and the instance. -/
def create {α : Type} (e : List Loop × List (Val α) × List (Val α)) : Option (Instance α) :=
  (iterationSpace e.1).map fun rs => ⟨e.1.length, rs, e.2.1, e.2.2⟩

/-- EquationTemplatesCreation.cpp:165-237, `createTemplates`. -/
def createTemplates {α : Type} (ns : List (Node α)) : Option (List (Instance α)) :=
  (collect [([], ns)]).mapM create

/-- The passes, in the order of FrontendActions.cpp:884-893; `ViewAccessFoldingPass` and the
canonicalization keep the values. -/
def instances {α : Type} (es : List (Eqn α)) : Option (List (Instance α)) :=
  createTemplates (explicitAll 0 (splitAll (lowerAll es)))

/-! ### BindingEquationConversion -/

/-- BindingEquationConversion.cpp:48-113, `BindingEquationOpToEquationOpPattern`, and
`VariableOp::getIndices` (Ops.cpp:1513-1527): the equation between a variable with the given
dimensions and its binding expression, which are outside of loops. -/
def binding {α : Type} (dims : List Nat) (var expr : Val α) : Instance α :=
  { dims := dims.length
    ranges := if dims.isEmpty then [] else [dims.map fun d : Nat => ⟨0, (d : Int)⟩]
    lhs := [if dims.isEmpty then var else extract 0 var]
    rhs := [if dims.isEmpty then expr else extract 0 expr] }

end Marco.Templ
