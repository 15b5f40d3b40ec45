/-!
# The inlining of records

`RecordInlining.cpp`: each variable whose type is a record is replaced by one variable for each component of the record.

Modelled are the paths and subscripts of the assignments to components, the unpacking of the assignments of whole records, the
results of the calls and the reads of components.  The values are not modelled but by the components that are taken from
them.  `none` stands for an access outside of an array (undefined behaviour).
-/

namespace Marco.RecInl

/-- A subscript: an index, a range or `:` (`UnboundedRangeOp`). -/
inductive Sub where
  | idx (i : Nat)
  | range (b e : Nat)
  | all
  deriving DecidableEq, Repr

/-- `VariableComponentSetOp`: the path, all the subscripts and how many of them belong to each component of the path;
`tensor`: the type of the value is a tensor; `value`: the components that are taken of the value that is assigned. -/
structure SetOp where
  path : List String
  subs : List Sub
  amounts : List Nat
  tensor : Bool
  value : List String
  deriving DecidableEq, Repr

/-- The assignment to a component reference: AssignmentStatementLowerer.cpp:42-91. -/
def lowerSet (dest : List (String × List Sub)) (tensor : Bool) : SetOp :=
  { path := dest.map Prod.fst, subs := dest.flatMap Prod.snd, amounts := dest.map fun d => d.2.length, tensor := tensor
    value := [] }

/-- `VariableComponentSetOp::getComponentSubscripts`: Ops.cpp:1789-1813. -/
def compSubs (op : SetOp) (k : Nat) : Option (List Sub) :=
  if op.subs.isEmpty then some [] else
  match op.amounts[k]? with
  | none => none
  | some 0 => some []
  | some n =>
    let b := (op.amounts.take k).sum
    if b + n ≤ op.subs.length then some ((op.subs.drop b).take n) else none

/-- `getComposedComponentName`: RecordInlining.cpp:14-17. -/
def composed (r c : String) : String := r ++ "." ++ c

/-- `getFullRankSubscripts`: RecordInlining.cpp:829-841. -/
def fullRank (rank : Nat) (given : List Sub) : List Sub := given ++ List.replicate (rank - given.length) .all

/-- The subscripts of the components after the first: RecordInlining.cpp:745-750, 791-796. -/
def laterSubs (op : SetOp) : Option (List Sub) :=
  ((List.range (op.path.length - 1)).mapM fun k => compSubs op (k + 1)).map List.flatten

/-- `replaceVariableComponentSetOp`, a path of more than two components: RecordInlining.cpp:723-764. -/
def mergeStep (rank : Nat) (op : SetOp) : Option SetOp := match op.path with
  | a :: b :: rest => do
    let first ← compSubs op 0
    let later ← laterSubs op
    return { op with path := composed a b :: rest, subs := fullRank rank first ++ later, amounts := rank :: op.amounts }
  | _ => none

/-- What an assignment is in the end: the variable and, unless it is set as a whole, the subscripts. -/
structure Store where
  name : String
  subs : Option (List Sub)
  deriving DecidableEq, Repr

/-- `replaceVariableComponentSetOp`, a path of two components: RecordInlining.cpp:765-818. -/
def finalStep (rank : Nat) (op : SetOp) : Option Store := match op.path with
  | [a, b] =>
    if op.subs.isEmpty then some { name := composed a b, subs := none } else
    if op.tensor then do
      let first ← compSubs op 0
      let later ← laterSubs op
      return { name := composed a b, subs := some (fullRank rank first ++ later) }
    else some { name := composed a b, subs := some op.subs }
  | _ => none

/-- The unpacking of one record variable after the other (`VariableOpUnpackPattern`, RecordInlining.cpp:418-507, 713-827).
`ranks`: the ranks of the variable and of the components of the path; the rank of the new variable is the sum (437-453).
The first argument bounds the number of steps. -/
def inlineSet : Nat → List Nat → SetOp → Option Store
  | 0, _, _ => none
  | n + 1, ranks, op =>
    if 2 < op.path.length then
      (mergeStep (ranks.headD 0) op).bind fun op' =>
        inlineSet n (match ranks with | a :: b :: rest => (a + b) :: rest | l => l) op'
    else finalStep (ranks.headD 0) op

/-- A record: the components and their types. -/
inductive RTy where
  | leaf
  | record (fields : List (String × RTy))

/-- `VariableComponentSetOpUnpackPattern`, one component: RecordInlining.cpp:309-348. The new path begins with the second
component of the old one (line 316). The value is not an array here. -/
def extend (op : SetOp) (c : String) : SetOp :=
  { op with path := op.path.drop 1 ++ [c], amounts := op.amounts ++ [0], value := op.value ++ [c] }

mutual
/-- `VariableComponentSetOpUnpackPattern`: RecordInlining.cpp:290-352, as long as the value is a record. -/
def unpackComp (op : SetOp) : RTy → List SetOp
  | .leaf => [op]
  | .record fields => unpackFields op fields
/-- The same for the components. -/
def unpackFields (op : SetOp) : List (String × RTy) → List SetOp
  | [] => []
  | (c, t) :: fs => unpackComp (extend op c) t ++ unpackFields op fs
end

/-- `VariableSetOpUnpackPattern`, one component: RecordInlining.cpp:246-274. -/
def setComponent (v : String) (rank : Nat) (c : String) : SetOp :=
  { path := [v, c], subs := List.replicate rank .all, amounts := [rank], tensor := rank ≠ 0, value := [c] }

/-- `VariableSetOpUnpackPattern`: RecordInlining.cpp:228-278, and the patterns for what it creates. -/
def setRecord (v : String) (rank : Nat) : List (String × RTy) → List SetOp
  | [] => []
  | (c, t) :: fs => unpackComp (setComponent v rank c) t ++ setRecord v rank fs

/-- `unpackResultType` and `CallResultUnpackPattern`: RecordInlining.cpp:853-869. The results of the call are given by the
components of the records (`none`: not a record); the new results of the old ones. -/
def newResults : List (Option (List String)) → Nat → List (List (String × Nat))
  | [], _ => []
  | none :: rest, n => [] :: newResults rest (n + 1)
  | some comps :: rest, n => comps.zipIdx n :: newResults rest (n + comps.length)

/-- `CallResultUnpackPattern`, RecordInlining.cpp:879-904: what a use of an old result becomes. For a record it is the result for
a component, for the others the counter, which counts only them (line 902). -/
def resultUses (results : List (Option (List String))) : List (List (String × Nat)) :=
  let news := newResults results 0
  results.zipIdx.map fun (r, k) => match r with
    | none => [("", ((results.take k).filter Option.isNone).length)]
    | some _ => (news[k]?).getD []

/-- A read: `VariableGetOp` followed by `ComponentGetOp`s; `known`: the `VariableGetOp` is in `symbolUsers`. -/
structure Get where
  root : String
  chain : List String
  known : Bool
  deriving DecidableEq, Repr

/-- `replaceVariableGetOp`, RecordInlining.cpp:683-711, for the reads that are in `symbolUsers` (489-495); the new
`VariableGetOp` (697) is not added to `symbolUsers`. -/
def getStep (v : String) (g : Get) : Get :=
  if g.root = v ∧ g.known = true then
    match g.chain with
    | [] => g
    | c :: cs => { root := composed v c, chain := cs, known := false }
  else g

/-- The variables are unpacked one after the other. -/
def inlineGet (order : List String) (g : Get) : Get := order.foldl (fun g v => getStep v g) g

end Marco.RecInl
