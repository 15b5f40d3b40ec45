import Verif.Model.Box

/-!
# Model of the instantiation of the schedulers
(`/repo/lib/Dialect/BaseModelica/Transforms/SchedulersInstantiation.cpp`, the calls and the functions of
`/repo/lib/Codegen/Conversion/BaseModelicaToRuntime/BaseModelicaToRuntime.cpp`, `BaseModelicaToFunc.cpp`,
`RuntimeToFunc.cpp` and `RuntimeToLLVM.cpp` that give the result its meaning)

In a group of blocks that can run in parallel, the blocks that only call the function of an equation are replaced by one
block that runs a scheduler of the runtime library. The scheduler is created, and the functions are added to it, in a
function called before the schedule is run; it is destroyed in a function called afterwards.

Simplified: a set of indices is the list of its ranges, and `+=` is the union as a list (C07). The operations the pass does
not look at are any type `O`. The name `SymbolTable::insert` gives to a symbol is a parameter. The runtime library is not
part of the repository: a scheduler calls each function once for each range added.
-/

namespace Marco.SchedInst

/-- `Variable` (include/marco/Dialect/BaseModelica/IR/Properties.h): the name is the root and the nested references. -/
structure Var where
  name : List String
  indices : List Box
  deriving DecidableEq, Repr

/-- `EquationCallOp` (include/marco/Dialect/BaseModelica/IR/Ops.td:4065-4074). -/
structure Call where
  callee : String
  indices : List Box
  parallelizable : Bool
  deriving DecidableEq, Repr

/-- The operations in a block. -/
inductive Op (O : Type) where
  | call (c : Call)
  /-- `runtime::SchedulerRunOp`. -/
  | run (scheduler : String)
  | other (o : O)
  deriving DecidableEq, Repr

/-- `ScheduleBlockOp` (Ops.td:4984-5014). -/
structure Block (O : Type) where
  parallelizable : Bool
  written : List Var
  readVars : List Var
  body : List (Op O)
  deriving DecidableEq, Repr

/-- The operations in a `ParallelScheduleBlocksOp` (Ops.td:5016). -/
inductive GroupOp (O : Type) where
  | block (b : Block O)
  | other (o : O)
  deriving DecidableEq, Repr

/-- The operations in an `InitialOp` or a `DynamicOp`. -/
inductive RegionOp (O : Type) where
  | group (ops : List (GroupOp O))
  | block (b : Block O)
  | other (o : O)
  deriving DecidableEq, Repr

/-- The two kinds of regions of a schedule. -/
inductive Phase where
  | ic
  | dynamic
  deriving DecidableEq, Repr

/-- The operations in a `ScheduleOp`. -/
inductive SchedOp (O : Type) where
  | region (p : Phase) (ops : List (RegionOp O))
  | other (o : O)
  deriving DecidableEq, Repr

/-- A schedule, with the name of its model. -/
structure Sched (O : Type) where
  model : String
  ops : List (SchedOp O)
  deriving DecidableEq, Repr

/-- `runtime::EquationFunctionOp` (lib/Dialect/Runtime/IR/Ops.cpp:230-245) with the call in its body
(SchedulersInstantiation.cpp:438-445). -/
structure Wrapper where
  name : String
  args : Nat
  callee : String
  deriving DecidableEq, Repr

/-- The operations in the functions called before a schedule is run: `runtime::SchedulerCreateOp`,
`runtime::SchedulerAddEquationOp` and the ones of other passes. -/
inductive BeginOp (O : Type) where
  | create (scheduler : String)
  | add (scheduler function : String) (indices : List Box) (independent : Bool)
  | other (o : O)
  deriving DecidableEq, Repr

/-- The operations in the functions called afterwards: `runtime::SchedulerDestroyOp` and the ones of other passes. -/
inductive EndOp (O : Type) where
  | destroy (scheduler : String)
  | other (o : O)
  deriving DecidableEq, Repr

/-- What the pass changes of the module: the names in its symbol table, the functions of the equations, the wrappers, and the
bodies of the `ICModelBeginOp`s, `DynamicModelBeginOp`s, `ICModelEndOp`s and `DynamicModelEndOp`s. -/
structure Module (O : Type) where
  symbols : List String
  functions : List String
  wrappers : List Wrapper
  begins : Phase → List (List (BeginOp O))
  ends : Phase → List (List (EndOp O))

/-- `IndexSet::rank`. -/
def rank : List Box → Nat
  | [] => 0
  | b :: _ => b.length

/-- `IndexSet::size`. -/
def size (l : List Box) : Nat := (l.map Box.size).sum

section
variable {O : Type}

/-- SchedulersInstantiation.cpp:145-155 for one operation: a block with exactly one operation, which is a call. -/
def isMoved : GroupOp O → Bool
  | .block b => match b.body with
    | [.call _] => true
    | _ => false
  | .other _ => false

/-- SchedulersInstantiation.cpp:145-155, `collectEquationCallBlocks`. -/
def collect (g : List (GroupOp O)) : List (Block O) :=
  g.filterMap fun
    | .block b => if isMoved (.block b) then some b else none
    | .other _ => none

/-- The calls directly in a body (`getOps<EquationCallOp>`, and the `walk` of 383-386: no operation of a collected block has
regions). -/
def calls (l : List (Op O)) : List Call :=
  l.filterMap fun
    | .call c => some c
    | _ => none

/-- SchedulersInstantiation.cpp:230-242, `hasSingleScalarEquationCall`. -/
def hasSingleScalarEquationCall (b : Block O) : Bool :=
  match calls b.body with
  | [c] => size c.indices == 1
  | _ => false

/-- `indices[name] += indices` for a map from names to sets. -/
def addVar (acc : List Var) (v : Var) : List Var :=
  if acc.any (·.name == v.name) then
    acc.map fun w => if w.name == v.name then ⟨w.name, w.indices ++ v.indices⟩ else w
  else acc ++ [v]

/-- SchedulersInstantiation.cpp:309-328 for one of the two lists: the entries of the map. -/
def mergeVars (l : List Var) : List Var := l.foldl addVar []

/-- SchedulersInstantiation.cpp:344-353, the nested references. -/
def nestedLess : List String → List String → Bool
  | a :: as, b :: bs => if a ≠ b then decide (a < b) else nestedLess as bs
  | as, bs => decide (as.length ≤ bs.length)

/-- SchedulersInstantiation.cpp:330-354, `sortFn`. A name has a root. -/
def sortFn (v w : Var) : Bool :=
  match v.name, w.name with
  | a :: as, b :: bs => if a ≠ b then decide (a < b) else nestedLess as bs
  | _, _ => false

/-- SchedulersInstantiation.cpp:305-358, `mergeVariableAccesses`; `sort` is `llvm::sort`. -/
def mergeVariableAccesses (sort : List Var → List Var) (blocks : List (Block O)) : List Var × List Var :=
  (sort (mergeVars (blocks.flatMap (·.written))), sort (mergeVars (blocks.flatMap (·.readVars))))

/-- SchedulersInstantiation.cpp:360-371, `declareScheduler`: the module and the name of the scheduler. -/
def declareScheduler (fresh : List String → String → String) (m : Module O) (base : String) : Module O × String :=
  let s := fresh m.symbols base
  ({ m with symbols := m.symbols ++ [s] }, s)

/-- SchedulersInstantiation.cpp:420-447, `createWrapperFunction`. `none`: the function called is not found, a null operation
is used. -/
def createWrapper (fresh : List String → String → String) (m : Module O) (c : Call) : Option (Module O × String) :=
  let n := fresh m.symbols (c.callee ++ "_wrapper")
  if c.callee ∈ m.functions then
    some ({ m with symbols := m.symbols ++ [n], wrappers := m.wrappers ++ [⟨n, rank c.indices * 2, c.callee⟩] }, n)
  else none

/-- SchedulersInstantiation.cpp:393-404: the operations created for the calls. -/
def addCalls (fresh : List String → String → String) (s : String) :
    Module O → List Call → Option (Module O × List (BeginOp O))
  | m, [] => some (m, [])
  | m, c :: cs => do
    let (m, n) ← createWrapper fresh m c
    let (m, l) ← addCalls fresh s m cs
    return (m, .add s n c.indices c.parallelizable :: l)

/-- SchedulersInstantiation.cpp:169-175 and 202-211, `createBeginFn`, with its body. -/
def createBegin (m : Module O) (p : Phase) (body : List (BeginOp O)) : Module O :=
  { m with begins := fun q => if q = p then m.begins q ++ [body] else m.begins q }

/-- SchedulersInstantiation.cpp:177-183 and 213-221, `createEndFn`, with its body. -/
def createEnd (m : Module O) (p : Phase) (body : List (EndOp O)) : Module O :=
  { m with ends := fun q => if q = p then m.ends q ++ [body] else m.ends q }

/-- SchedulersInstantiation.cpp:373-407, `configureScheduler`. -/
def configureScheduler (fresh : List String → String → String) (m : Module O) (s : String) (blocks : List (Block O))
    (p : Phase) : Option (Module O) := do
  let (m, l) ← addCalls fresh s m (blocks.flatMap fun b => calls b.body)
  return createBegin m p (.create s :: l)

/-- SchedulersInstantiation.cpp:409-418, `destroyScheduler`. -/
def destroyScheduler (m : Module O) (s : String) (p : Phase) : Module O := createEnd m p [.destroy s]

/-- SchedulersInstantiation.cpp:254-300, `processParallelOps` for one operation. -/
def processGroup (fresh : List String → String → String) (sort : List Var → List Var) (base : String) (p : Phase)
    (m : Module O) (g : List (GroupOp O)) : Option (Module O × List (GroupOp O)) :=
  let blocks := collect g
  if blocks.length == 1 && blocks.all hasSingleScalarEquationCall then some (m, g)
  else do
    let vars := mergeVariableAccesses sort blocks
    let (m, s) := declareScheduler fresh m base
    let m ← configureScheduler fresh m s blocks p
    let m := destroyScheduler m s p
    return (m, g.filter (fun o => !isMoved o) ++ [.block ⟨false, vars.1, vars.2, [.run s]⟩])

/-- A loop that changes the module and rewrites the elements of a list. -/
def mapState {M α β : Type} (f : M → α → Option (M × β)) : M → List α → Option (M × List β)
  | m, [] => some (m, [])
  | m, a :: as => do
    let (m, b) ← f m a
    let (m, bs) ← mapState f m as
    return (m, b :: bs)

/-- SchedulersInstantiation.cpp:162-188 and 195-227 for one operation of the region. -/
def processRegionOp (fresh : List String → String → String) (sort : List Var → List Var) (base : String) (p : Phase)
    (m : Module O) : RegionOp O → Option (Module O × RegionOp O)
  | .group g => (processGroup fresh sort base p m g).map fun r => (r.1, .group r.2)
  | o => some (m, o)

/-- SchedulersInstantiation.cpp:185-187 and 223-226. -/
def baseName (model : String) : Phase → String
  | .ic => model ++ "_ic_scheduler"
  | .dynamic => model ++ "_dynamic_scheduler"

/-- SchedulersInstantiation.cpp:157-188 and 190-227, `processInitialOp` and `processDynamicOp`, among the operations of the
schedule. -/
def processSchedOp (fresh : List String → String → String) (sort : List Var → List Var) (model : String) (p : Phase)
    (m : Module O) : SchedOp O → Option (Module O × SchedOp O)
  | .region q ops =>
    if q = p then
      (mapState (processRegionOp fresh sort (baseName model p) p) m ops).map fun r => (r.1, .region q r.2)
    else some (m, .region q ops)
  | o => some (m, o)

/-- SchedulersInstantiation.cpp:109-143, `processScheduleOp`: the initial operations first. -/
def processSched (fresh : List String → String → String) (sort : List Var → List Var) (m : Module O) (s : Sched O) :
    Option (Module O × Sched O) := do
  let (m, ops) ← mapState (processSchedOp fresh sort s.model .ic) m s.ops
  let (m, ops) ← mapState (processSchedOp fresh sort s.model .dynamic) m ops
  return (m, ⟨s.model, ops⟩)

/-- SchedulersInstantiation.cpp:82-107, `runOnOperation`. -/
def instantiate (fresh : List String → String → String) (sort : List Var → List Var) (m : Module O) (l : List (Sched O)) :
    Option (Module O × List (Sched O)) :=
  mapState (processSched fresh sort) m l

/-! ## The meaning of the result -/

/-- BaseModelicaToRuntime.cpp:228-285, `addMissingRuntimeFunctions`, for one kind of function. -/
def addMissing {α : Type} (l : List (List α)) : List (List α) := if l.length = 0 then l ++ [[]] else l

/-- RuntimeToFunc.cpp:464-548, `groupModelOps`, for one kind of function. -/
def groupModelOps {α : Type} (l : List (List α)) : List (List α) := if l.length > 1 then [l.flatten] else l

/-- RuntimeToFunc.cpp:248-343: the functions get a fixed name. `none`: not exactly one function of this name. -/
def body {α : Type} (l : List (List α)) : Option (List α) :=
  match groupModelOps (addMissing l) with
  | [b] => some b
  | _ => none

/-- A call of `schedulerAddEquation` of the runtime library (RuntimeToLLVM.cpp:290-330): the function, the rank, the array of
bounds (null without ranges), and whether the indices are independent. -/
structure Entry where
  function : String
  rank : Nat
  bounds : List Int
  independent : Bool
  deriving DecidableEq, Repr

/-- RuntimeToLLVM.cpp:68-73 and BaseModelicaToFunc.cpp:166-174: the bounds of a range. -/
def bounds (b : Box) : List Int := b.flatMap fun r => [r.b, r.e]

/-- RuntimeToLLVM.cpp:279-357, the lowering of `SchedulerAddEquationOp`. -/
def entries (function : String) (indices : List Box) (independent : Bool) : List Entry :=
  if indices.isEmpty then [⟨function, rank indices, [], independent⟩]
  else indices.map fun b => ⟨function, rank indices, bounds b, independent⟩

/-- The schedulers that exist, with what was added to them. -/
abbrev Table := List (String × List Entry)

/-- The operations before a schedule is run. `none`: a scheduler is created twice, so that the first one is lost, or used
before it is created. -/
def execBegin : Table → List (BeginOp O) → Option Table
  | t, [] => some t
  | t, .create s :: l => if s ∈ t.map (·.1) then none else execBegin (t ++ [(s, [])]) l
  | t, .add s f is b :: l =>
    if s ∈ t.map (·.1) then
      execBegin (t.map fun x => if x.1 = s then (x.1, x.2 ++ entries f is b) else x) l
    else none
  | t, .other _ :: l => execBegin t l

/-- The operations after a schedule has been run. `none`: a scheduler is destroyed that does not exist. -/
def execEnd : List String → List (EndOp O) → Option (List String)
  | t, [] => some t
  | t, .destroy s :: l => if s ∈ t then execEnd (t.erase s) l else none
  | t, .other _ :: l => execEnd t l

/-- What happens when a schedule is run: the function of an equation is called with some bounds, where it may be permitted to
compute the indices in any order, or another operation is executed. -/
inductive Event (O : Type) where
  | call (callee : String) (bounds : List Int) (independent : Bool)
  | other (o : O)
  deriving DecidableEq, Repr

/-- BaseModelicaToFunc.cpp:149-184, the lowering of `EquationCallOp`. -/
def callEvents (c : Call) : List (Event O) :=
  if c.indices.isEmpty then [.call c.callee [] c.parallelizable]
  else c.indices.map fun b => .call c.callee (bounds b) c.parallelizable

/-- A function added to a scheduler is called with a pointer to `2 * rank` bounds and reads as many as it has arguments
(RuntimeToFunc.cpp:346-398). `none`: there is no such function or bounds are missing. -/
def entryEvents (ws : List Wrapper) (e : Entry) : Option (Event O) := do
  let w ← ws.find? (·.name == e.function)
  let given := e.bounds.take (2 * e.rank)
  if given.length = 2 * e.rank ∧ w.args ≤ given.length then 
    some (.call w.callee (given.take w.args) e.independent)
  else none

/-- `schedulerRun` of the runtime library. `none`: there is no such scheduler. -/
def runEvents (ws : List Wrapper) (t : Table) (s : String) : Option (List (Event O)) := do
  let x ← t.find? (·.1 == s)
  x.2.mapM (entryEvents ws)

/-- The execution of an operation of a block. -/
def opEvents (ws : List Wrapper) (t : Table) : Op O → Option (List (Event O))
  | .call c => some (callEvents c)
  | .run s => runEvents ws t s
  | .other o => some [.other o]

/-- BaseModelicaToRuntime.cpp:519-527: the operations of a block are executed. -/
def blockEvents (ws : List Wrapper) (t : Table) (b : Block O) : Option (List (Event O)) :=
  (b.body.mapM (opEvents ws t)).map List.flatten

/-- BaseModelicaToRuntime.cpp:500-517 for one operation. -/
def groupOpEvents (ws : List Wrapper) (t : Table) : GroupOp O → Option (List (Event O))
  | .block b => blockEvents ws t b
  | .other o => some [.other o]

/-- BaseModelicaToRuntime.cpp:429-483 for one operation of a region. -/
def regionOpEvents (ws : List Wrapper) (t : Table) : RegionOp O → Option (List (Event O))
  | .group g => (g.mapM (groupOpEvents ws t)).map List.flatten
  | .block b => blockEvents ws t b
  | .other o => some [.other o]

/-- BaseModelicaToRuntime.cpp:429-483: what happens for each of the operations of a region, in order. -/
def regionEvents (ws : List Wrapper) (t : Table) (l : List (RegionOp O)) : Option (List (List (Event O))) :=
  l.mapM (regionOpEvents ws t)

/-- The regions of some kind in some schedules. -/
def regions (p : Phase) (l : List (Sched O)) : List (List (RegionOp O)) :=
  l.flatMap fun s => s.ops.filterMap fun
    | .region q ops => if q = p then some ops else none
    | .other _ => none

end

end Marco.SchedInst
