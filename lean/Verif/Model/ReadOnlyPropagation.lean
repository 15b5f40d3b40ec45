import Mathlib.Data.List.Basic

/-!
# Model of the propagation of read-only variables
(`/repo/lib/Dialect/BaseModelica/Transforms/ReadOnlyVariablesPropagation.cpp`)

The pass replaces each read of a parameter or constant that has a binding equation with a copy of
the operations of that equation. Each region of the operations of the model is processed on its own,
by one of several threads (lines 76-125); the model processes whole regions one after the other, in
any order given to it. A region is a block of operations in SSA form, with numbered values; nested
regions (those of loops and branches in algorithms) are not modelled. The operations of the binding
equations are taken to be pure. Types are left out.
-/

namespace Marco.ROProp

/-- What an operation does: read a variable (`VariableGetOp`) or anything else. -/
inductive Kind where
  | get (v : String)
  | app (f : String)
  deriving DecidableEq, Repr

/-- An operation with its result and operands. -/
structure Op where
  res : ℕ
  kind : Kind
  args : List ℕ
  deriving DecidableEq, Repr

/-- A region: its operations but for the terminator, the operands of the terminator, and the variable
it belongs to if it is the body of a `BindingEquationOp`. -/
structure Region where
  owner : Option String
  ops : List Op
  outs : List ℕ
  deriving DecidableEq, Repr

/-- `ModelOp`: the variables (`true` for parameters and constants, Types.cpp:531), the regions of its
operations in order (lines 58-65), and the names of `getIgnoredVariableNames` (lines 42-49). -/
structure Model where
  vars : List (String × Bool)
  ignored : List String
  regions : List Region
  deriving DecidableEq, Repr

/-- How the pass ends. `loops`: an endless loop. `undefined`: null pointer accessed. -/
inductive Outcome where
  | ok (m : Model)
  | loops
  | undefined
  deriving DecidableEq, Repr

/-- ReadOnlyVariablesPropagation.cpp:67-74: the binding equation of a variable; a later one takes the
place of an earlier one. -/
def binding (m : Model) (v : String) : Option ℕ :=
  (List.range m.regions.length).reverse.find? fun k =>
    (m.regions[k]?.bind (·.owner)) == some v

/-- The variable read by an operation. -/
def Op.reads (o : Op) : Option String :=
  match o.kind with
  | .get v => some v
  | .app _ => none

/-- A number above those of all the values of a region. -/
def Region.bound (r : Region) : ℕ :=
  (r.ops.flatMap (fun o => o.res :: o.args) ++ r.outs).foldr (fun i n => max (i + 1) n) 0

/-- The clone of an operation (`builder.clone(op, mapping)`, line 108): its values get new numbers. -/
def Op.clone (base : ℕ) (o : Op) : Op where
  res := base + o.res
  kind := o.kind
  args := o.args.map (base + ·)

/-- `replaceAllUsesWith` (line 119) for one operation. -/
def Op.replaceUses (old new : ℕ) (o : Op) : Op :=
  { o with args := o.args.map fun a => if a = old then new else a }

/-- ReadOnlyVariablesPropagation.cpp:101-120: the operations of the binding equation are cloned before
the read, the uses of which are replaced; the read is erased. -/
def replaceGet (body : Region) (g : ℕ) (r : Region) : Region :=
  let base := r.bound
  let new := base + body.outs.headD 0
  { r with
    ops := (r.ops.flatMap fun o =>
      if o.res = g then body.ops.map (Op.clone base) else [o]).map (Op.replaceUses g new)
    outs := r.outs.map fun a => if a = g then new else a }

/-- ReadOnlyVariablesPropagation.cpp:84-121: one read of a region. If the region is that of the binding
equation itself, the loop of lines 105-109 runs over the operations among which it inserts: each
operation before the read adds one more operation before the read, and the read is never reached. -/
def processGet (m : Model) (k : ℕ) (g : Op) : Outcome :=
  match g.kind with
  | .app _ => .ok m
  | .get v =>
    if v ∈ m.ignored then .ok m
    else
      match binding m v with
      | none => .ok m
      | some b =>
        match m.vars.find? (·.1 == v) with
        | none => .undefined
        | some (_, readOnly) =>
          if !readOnly then .ok m
          else
            match m.regions[b]?, m.regions[k]? with
            | some body, some r =>
              if b = k ∧ (r.ops.head?.map (·.res)) ≠ some g.res then .loops
              else .ok { m with regions := m.regions.set k (replaceGet body g.res r) }
            | _, _ => .ok m

/-- ReadOnlyVariablesPropagation.cpp:84: the loop over the reads. -/
def processGets (k : ℕ) : List Op → Model → Outcome
  | [], m => .ok m
  | g :: gs, m =>
    match processGet m k g with
    | .ok m' => processGets k gs m'
    | o => o

/-- ReadOnlyVariablesPropagation.cpp:79-122: one region. The reads are collected before any is
replaced (lines 80-82). -/
def processRegion (m : Model) (k : ℕ) : Outcome :=
  processGets k (((m.regions[k]?.map (·.ops)).getD []).filter fun o => o.reads.isSome) m

/-- ReadOnlyVariablesPropagation.cpp:76-125: the regions, in the order in which the threads get to
them. -/
def processRegions : List ℕ → Model → Outcome
  | [], m => .ok m
  | k :: ks, m =>
    match processRegion m k with
    | .ok m' => processRegions ks m'
    | o => o

end Marco.ROProp
