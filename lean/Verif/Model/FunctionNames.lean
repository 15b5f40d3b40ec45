import Verif.Model.IdaJacobian

/-!
# Unwrapping and mangling of the functions

`FunctionUnwrap.cpp`, `FunctionMangling.cpp` and the names of the runtime functions (`Mangling.cpp`).

The module is the list of its functions, with the names of the classes around each of them, the paths of the other symbols,
and the list of the callees of the call operations (the position in the list tells which call it is).  The bodies of the
functions are not modelled, they are moved as they are.
-/

namespace Marco.FnNames
open Marco

/-- A function: the operation itself (`id`), the classes around it from the module inwards, its name and its `inverse`
attribute (the argument and the name of the function, InverseFunctionsAttr; `StandardFunctionLowerer.cpp:103-142`). -/
structure Fn where
  id : Nat
  scope : List String
  name : String
  inverse : List (Nat × String)
  deriving DecidableEq, Repr

/-- The path of a function from the module (`getSymbolRefFromRoot`, Dialect.cpp:114-139). -/
def Fn.path (f : Fn) : List String := f.scope ++ [f.name]

/-- The module: the functions, the paths of the other symbols (packages, models, records) and the callees of the calls. -/
structure Mod where
  fns : List Fn
  others : List (List String)
  calls : List (List String)
  deriving DecidableEq, Repr

/-- `CallOp::getFunction`, Ops.cpp:11137-11153, with the test that it is a `FunctionOp` (FunctionUnwrap.cpp:122): the lookups
one symbol table after the other are here the search of the whole path. -/
def resolve (m : Mod) (p : List String) : Option Nat := (m.fns.find? fun f => f.path == p).map Fn.id

/-- The names in the symbol table of the module. -/
def topNames (m : Mod) : List String :=
  (m.others.filterMap fun p => match p with | [n] => some n | _ => none) ++
    m.fns.filterMap fun f => if f.scope.isEmpty then some f.name else none

/-- The new name before the clashes are considered: FunctionUnwrap.cpp:39-60. -/
def joined (f : Fn) : String := match f.path with
  | [] => ""
  | n :: ns => ns.foldl (fun acc s => acc ++ "_" ++ s) n

/-- What happens to the path of a symbol inside of a function that is moved: FunctionUnwrap.cpp:64-66 (the body is moved). -/
def reroot (old : List String) (new : String) (p : List String) : List String :=
  if old.isPrefixOf p then new :: p.drop old.length else p

/-- The functions after one of them is moved: the new operation has no attributes but the name (FunctionUnwrap.cpp:62). -/
def moveFn (old : List String) (new : String) (id : Nat) (f : Fn) : Fn :=
  if f.id = id then { f with scope := [], name := new, inverse := [] } else { f with scope := reroot old new f.scope }

/-- `FunctionOpPattern::matchAndRewrite`, FunctionUnwrap.cpp:33-94, and the legality at 130-132. `callsMap` gives the callee of
each call before the pass (lines 118-126). -/
def unwrapStep (callsMap : List (Option Nat)) (m : Mod) (id : Nat) : Mod := match m.fns.find? (fun f => f.id = id) with
  | none => m
  | some f =>
    if f.scope.isEmpty then m else
    let new := IdaJac.insertName (topNames m) (joined f)
    { fns := m.fns.map (moveFn f.path new id)
      others := m.others.map (reroot f.path new)
      calls := m.calls.zipIdx.map fun (p, c) => if callsMap[c]? = some (some id) then [new] else p }

/-- `FunctionUnwrapPass::runOnOperation`, FunctionUnwrap.cpp:113-146; `order` is the order in which the conversion takes the
functions. -/
def unwrap (order : List Nat) (m : Mod) : Mod := order.foldl (unwrapStep (m.calls.map (resolve m))) m

/-- `getMangled` of a name: FunctionMangling.cpp:21. -/
def mangled (name : String) : String := "_M" ++ name

/-- `getMangled` of a reference: FunctionMangling.cpp:23-27. -/
def mangledRef : List String → List String
  | [] => []
  | n :: ns => mangled n :: ns

/-- `FunctionManglingPass::runOnOperation`, FunctionMangling.cpp:30-42. The name of a function is part of the scopes of the
symbols inside of it; the pass runs when no function is inside of a function, which is left out here. -/
def mangle (m : Mod) : Mod :=
  { m with fns := m.fns.map fun f => { f with name := mangled f.name }, calls := m.calls.map mangledRef }

/-- The two passes: FrontendActions.cpp:874-875. -/
def run (order : List Nat) (m : Mod) : Mod := mangle (unwrap order m)

/-- The function that the explicitation calls for the inverse of `f` with respect to an argument: `CallOpInterface::inverse`,
InvertibleOpInterfaceImpl.cpp:444-478 (`none`: not invertible). -/
def inverseCallee (f : Fn) (arg : Nat) : Option (List String) := (f.inverse.lookup arg).map fun g => [g]

/-- `RuntimeFunctionsMangling::getMangledFunction`, Mangling.cpp:7-17. -/
def runtimeName (base ret : String) (args : List String) : String :=
  args.foldl (fun acc a => acc ++ "_" ++ a) ("_M" ++ base ++ "_" ++ ret)

end Marco.FnNames
