/-!
# Model of the vectorization of calls

A function may be called with arrays of the arguments it expects; it is then called for each element. The types of the
results are computed by `CallLowerer::getVectorizedResultTypes` (`/repo/lib/Codegen/Lowering/CallLowerer.cpp`), and the
loops are created by the pass of `/repo/lib/Dialect/BaseModelica/Transforms/FunctionScalarization.cpp`. Of the types of
the arguments only the dimensions are modelled; a scalar has none.
-/

namespace Marco.Vect

/-- A dimension: `none` is `mlir::ShapedType::kDynamic`. -/
abbrev Dim := Option Nat

/-- An argument: its dimensions, and the number of dimensions that the function expects. -/
structure Arg where
  shape : List Dim
  expected : Nat

/-- CallLowerer.cpp:468-491 and FunctionScalarization.cpp:77-100: the additional dimensions of an argument are checked
against the dimensions found so far, which are made static if they are dynamic. -/
def specialize : List Dim → List Dim → Option (List Dim)
  | d :: ds, none :: ss => (specialize ds ss).map (d :: ·)
  | some d :: ds, some s :: ss => if d ≠ s then none else (specialize ds ss).map (some d :: ·)
  | none :: ds, some s :: ss => (specialize ds ss).map (some s :: ·)
  | ds, [] => some ds
  | [], _ :: _ => some []

/-- CallLowerer.cpp:459-492: the arguments after the first one. -/
def otherArgs (dims : List Dim) : List Arg → Option (List Dim)
  | [] => some dims
  | a :: as =>
    if a.shape.length ≠ a.expected + dims.length then none
    else (specialize dims (a.shape.take dims.length)).bind fun dims => otherArgs dims as

/-- CallLowerer.cpp:436-493: the additional dimensions of the results (`none` is `false`). -/
def vectorizedDims : List Arg → Option (List Dim)
  | [] => some []
  | a :: as => otherArgs (a.shape.take (a.shape.length - a.expected)) as

/-- CallLowerer.cpp:431-517: the dimensions of each result, from those of the results of the function. -/
def vectorizedResults (args : List Arg) (results : List (List Dim)) : Option (List (List Dim)) :=
  (vectorizedDims args).map fun dims => results.map fun r => dims ++ r

/-- FunctionScalarization.cpp:52-54 and 69-101: the arguments after the first one. -/
def otherArgsRank (dims : List Dim) : List Arg → Nat
  | [] => dims.length
  | a :: as =>
    if a.shape.length ≤ a.expected then 0
    else if a.shape.length ≠ a.expected + dims.length then 0
    else match specialize dims (a.shape.take dims.length) with
      | none => 0
      | some dims => otherArgsRank dims as

/-- FunctionScalarization.cpp:18-105: how many loops are created. The first argument gives the dimensions (62-66), but
line 64 reads the dimension `arg.index()`, which is 0. -/
def vectorizationRank (numResults : Nat) (args : List Arg) : Nat :=
  if numResults ≠ 1 then 0
  else match args with
    | [] => 0
    | a :: as =>
      if a.shape.length ≤ a.expected then 0
      else otherArgsRank (List.replicate (a.shape.length - a.expected) (a.shape[0]?.getD none)) as

end Marco.Vect
