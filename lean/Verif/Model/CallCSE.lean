import Verif.Model.Box

/-!
# Model of the elimination of common calls
(`/repo/lib/Dialect/BaseModelica/Transforms/CallCSE.cpp`, with `isEquivalent` of
`/repo/lib/Dialect/BaseModelica/Transforms/EquationExpressionOpInterfaceImpl.cpp`)

The operations of an equation template are trees; a `CallOp` has a number, so that its uses are
recognized, and a tree with the number stands for the operation. The arguments of calls are
positional. The calls are collected in the post-order of the trees (the code uses the order of the
block, in which operands come first too). The new variables have names of their own
(`SymbolTable::insert` makes `_cse` unique): they are the results of a group of calls.
-/

namespace Marco.CSE

mutual
/-- Values in a template. `ind` is an induction variable of the template, `bound d k` the argument
`k` of the region of the `d`-th enclosing reduction, `op` an operation that is compared by its
operands, `call` the result `r` of a call, `cse` an element of a new variable, the one for the result
`r` of the group `n`, at the values of the inductions minus the offsets. -/
inductive Ex where
  | const (k : ℤ)
  | get (v : String)
  | ind (i : ℕ)
  | bound (d k : ℕ)
  | op (o : String) (as : Args)
  | red (action : String) (its : Args) (body : Ex)
  | call (id : ℕ) (f : String) (r : ℕ) (as : Args)
  | cse (n r : ℕ) (idx : List (ℕ × ℤ))

/-- Lists of operands. -/
inductive Args where
  | nil
  | cons (a : Ex) (as : Args)
end

/-- `EquationTemplateOp` with the iteration spaces of its main instances: the stored ranges, none for
a scalar equation. -/
structure Template where
  sides : List (Ex × Ex)
  spaces : List (List Box)

/-- A new variable: the group, the result, the shape (CallCSE.cpp:383-398). -/
structure Var where
  group : ℕ
  result : ℕ
  shape : List ℕ
  deriving DecidableEq, Repr

/-- The signatures of the functions: the number of results, and whether one of them is a tensor. -/
structure Sig where
  results : String → ℕ
  tensor : String → Bool

/-- A replaced operation is used again, a value is used out of its region. -/
inductive Err where
  | useAfterFree
  | invalid
  deriving DecidableEq, Repr

/-! ## Equivalence of expressions -/

mutual
/-- EquationExpressionOpInterfaceImpl.cpp:70-103, for one operand: the pairs of the inductions of the
nested operations, and the pair of the operand itself, which is appended last (line 106). Arguments of
regions are not compared. For operations it is `isEquivalent` (lines 110-149 for most of them, 216-244
for reductions, 367-448 for calls, 995-1010 for variables, 1139-1157 for constants). The results of
calls are not compared. -/
def equivOperand : Ex → Ex → Option (List (ℕ × ℕ) × List (ℕ × ℕ))
  | .ind i, .ind j => some ([], [(i, j)])
  | .bound _ _, .bound _ _ => some ([], [])
  | .const k, .const l => if k = l then some ([], []) else none
  | .get v, .get w => if v = w then some ([], []) else none
  | .op o as, .op p bs => if o = p then (equivArgs as bs).map fun x => (x.1 ++ x.2, []) else none
  | .red s as a, .red t bs b =>
    if s = t then
      match equivArgs as bs, equivOperand a b with
      | some x, some y => some (x.1 ++ x.2 ++ (y.1 ++ y.2), [])
      | _, _ => none
    else none
  | .call _ f _ as, .call _ g _ bs =>
    if f = g then (equivArgs as bs).map fun x => (x.1 ++ x.2, []) else none
  | _, _ => none

/-- EquationExpressionOpInterfaceImpl.cpp:58-108, `areExpressionOperandsEquivalent`. -/
def equivArgs : Args → Args → Option (List (ℕ × ℕ) × List (ℕ × ℕ))
  | .nil, .nil => some ([], [])
  | .cons a as, .cons b bs =>
    match equivOperand a b, equivArgs as bs with
    | some x, some y => some (x.1 ++ y.1, x.2 ++ y.2)
    | _, _ => none
  | _, _ => none
end

/-- `isEquivalent` of an operation. -/
def equiv (a b : Ex) : Option (List (ℕ × ℕ)) := (equivOperand a b).map (·.1)

/-! ## Collection -/

mutual
/-- The calls of an expression, those in regions too, in post-order (CallCSE.cpp:87-96). Those with
tensors as results are skipped. -/
def calls (sig : Sig) : Ex → List Ex
  | .op _ as => callsArgs sig as
  | .red _ as a => callsArgs sig as ++ calls sig a
  | .call id f r as =>
    callsArgs sig as ++ if sig.tensor f then [] else [.call id f r as]
  | _ => []

/-- The calls of the operands. -/
def callsArgs (sig : Sig) : Args → List Ex
  | .nil => []
  | .cons a as => calls sig a ++ callsArgs sig as
end

/-- The number of a call. -/
def Ex.id : Ex → ℕ
  | .call id _ _ _ => id
  | _ => 0

/-- Every operation once. -/
def dedup : List Ex → List Ex
  | [] => []
  | a :: l => a :: (dedup l).filter fun b => b.id != a.id

/-- The calls of a template. -/
def Template.calls (sig : Sig) (t : Template) : List Ex :=
  dedup (t.sides.flatMap fun s => CSE.calls sig s.1 ++ CSE.calls sig s.2)

/-- CallCSE.cpp:22-37, `haveSameInductionRanges`; equal index sets are taken to have the same stored
ranges. -/
def Template.same (t : Template) : Bool :=
  match t.spaces with
  | [] => false
  | s :: l => l.all (· == s)

/-- CallCSE.cpp:57-70: the ranges the template is processed with. -/
def Template.ranges (t : Template) : List (Option Box) :=
  if t.same then
    match t.spaces.headD [] with
    | [] => [none]
    | l => l.map some
  else []

/-- CallCSE.cpp:110-114, `CallEquivalenceGroupEntry`, with the number of the template. -/
structure Entry where
  template : ℕ
  call : Ex
  ranges : Option Box
  used : List ℕ

/-- CallCSE.cpp:78-99, `collectCallOps`, with the inductions of the call as lines 205-221 give them. -/
def collectCalls (sig : Sig) (ts : List Template) : List Entry :=
  ts.zipIdx.flatMap fun x => x.1.ranges.flatMap fun r => (x.1.calls sig).map fun c =>
    ⟨x.2, c, r, ((equiv c c).getD []).map (·.1)⟩

/-- The range of an induction variable. -/
def rangeOf (b : Option Box) (i : ℕ) : Option Range := b.bind fun l => l[i]?

/-- CallCSE.cpp:134-200, for one group: the entry with the inductions in the order of the
representative, if it belongs to the group. -/
def joins (rep e : Entry) : Option Entry :=
  match equiv e.call rep.call with
  | none => none
  | some [] => some { e with used := [] }
  | some pairs =>
    if pairs.any fun x => rangeOf e.ranges x.1 != rangeOf rep.ranges x.2 then none
    else some { e with
      used := rep.used.filterMap fun j => (pairs.find? fun x => x.2 == j).map (·.1) }

/-- CallCSE.cpp:128-224: the entry goes to the first group it belongs to. -/
def addEntry (e : Entry) : List (List Entry) → List (List Entry)
  | [] => [[e]]
  | [] :: gs => [] :: addEntry e gs
  | (rep :: g) :: gs =>
    match joins rep e with
    | some e' => (rep :: g ++ [e']) :: gs
    | none => (rep :: g) :: addEntry e gs

/-- CallCSE.cpp:122-226, `buildEquivalenceGroups`. -/
def buildGroups (es : List Entry) : List (List Entry) := es.foldl (fun gs e => addEntry e gs) []

/-! ## Replacement -/

/-- What the calls of a template have been replaced by so far: the group and the indices. -/
abbrev Done := List ((ℕ × ℕ) × (ℕ × List (ℕ × ℤ)))

/-- The replacement of a call of a template. -/
def Done.get (d : Done) (t id : ℕ) : Option (ℕ × List (ℕ × ℤ)) :=
  (d.find? fun x => x.1 == (t, id)).map (·.2)

mutual
/-- The value after the replacements (`replaceOp`, line 379): the results of a replaced call are
elements of the new variables. -/
def subst (s : ℕ → Option (ℕ × List (ℕ × ℤ))) : Ex → Ex
  | .op o as => .op o (substArgs s as)
  | .red a its b => .red a (substArgs s its) (subst s b)
  | .call id f r as =>
    match s id with
    | some x => .cse x.1 r x.2
    | none => .call id f r (substArgs s as)
  | e => e

/-- For operands. -/
def substArgs (s : ℕ → Option (ℕ × List (ℕ × ℤ))) : Args → Args
  | .nil => .nil
  | .cons a as => .cons (subst s a) (substArgs s as)
end

mutual
/-- The values are defined in the regions they are used in. -/
def closed (depth : ℕ) : Ex → Bool
  | .bound d _ => decide (d < depth)
  | .op _ as => closedArgs depth as
  | .red _ its b => closedArgs depth its && closed (depth + 1) b
  | .call _ _ _ as => closedArgs depth as
  | _ => true

/-- For operands. -/
def closedArgs (depth : ℕ) : Args → Bool
  | .nil => true
  | .cons a as => closed depth a && closedArgs depth as
end

mutual
/-- The clone of an expression with other inductions (CallCSE.cpp:251-297, `cloneDefUseChain`). -/
def rename (ρ : ℕ → ℕ) : Ex → Ex
  | .ind i => .ind (ρ i)
  | .op o as => .op o (renameArgs ρ as)
  | .red a its b => .red a (renameArgs ρ its) (rename ρ b)
  | .call id f r as => .call id f r (renameArgs ρ as)
  | .cse n r idx => .cse n r (idx.map fun x => (ρ x.1, x.2))
  | e => e

/-- For operands. -/
def renameArgs (ρ : ℕ → ℕ) : Args → Args
  | .nil => .nil
  | .cons a as => .cons (rename ρ a) (renameArgs ρ as)
end

/-- CallCSE.cpp:334-339: the new induction of an old one. If it is mapped more than once the last one
stays. -/
def position (used : List ℕ) (i : ℕ) : ℕ := used.length - 1 - used.reverse.idxOf i

/-- CallCSE.cpp:228-249, `shiftInductionRanges`: the inductions with the begins of their ranges. -/
def shifted (ranges : Option Box) (inductions used : List ℕ) : List (ℕ × ℤ) :=
  (inductions.zip used).map fun x => (x.1, ((rangeOf ranges x.2).map (·.b)).getD 0)

/-- CallCSE.cpp:408-422: the iteration space of the driver equations. -/
def cseRanges (rep : Entry) : Box := rep.used.filterMap (rangeOf rep.ranges)

/-- The call with another result. -/
def Ex.withResult (r : ℕ) : Ex → Ex
  | .call id f _ as => .call id f r as
  | e => e

/-- The called function. -/
def Ex.callee : Ex → String
  | .call _ f _ _ => f
  | _ => ""

/-- CallCSE.cpp:299-349 and 440-449: the equation of the variable for the result `r` of the group `n`;
`rhs` is the call as it is now. -/
def driver (rep : Entry) (n r : ℕ) (rhs : Ex) : Template where
  sides := [(.cse n r (shifted rep.ranges (List.range rep.used.length) rep.used),
    rename (position rep.used) (rhs.withResult r))]
  spaces := [if (cseRanges rep).isEmpty then [] else [cseRanges rep]]

/-- The state of the processing. -/
structure State where
  done : Done
  vars : List Var
  drivers : List Template

/-- The replacement of one call (CallCSE.cpp:354-381). -/
def replaceCall (n : ℕ) (d : Done) (e : Entry) : Except Err Done :=
  if (d.get e.template e.call.id).isSome then .error .useAfterFree
  else .ok (d ++ [((e.template, e.call.id), (n, shifted e.ranges e.used e.used))])

/-- CallCSE.cpp:476-499, for one group. -/
def processGroup (sig : Sig) (st : State) (g : ℕ × List Entry) : Except Err State :=
  match g.2 with
  | [] => .ok st
  | rep :: _ =>
    if g.2.length < sig.results rep.call.callee then .ok st
    else if (st.done.get rep.template rep.call.id).isSome then .error .useAfterFree
    else if !closed 0 rep.call then .error .invalid
    else do
      let rhs := subst (st.done.get rep.template) rep.call
      let results := List.range (sig.results rep.call.callee)
      let done ← g.2.foldlM (replaceCall g.1) st.done
      .ok ⟨done, st.vars ++ results.map fun r => ⟨g.1, r, (cseRanges rep).map Range.size⟩,
        st.drivers ++ results.map fun r => driver rep g.1 r rhs⟩

/-- The new templates and variables. -/
structure Result where
  templates : List Template
  vars : List Var

/-- CallCSE.cpp:456-502, `processModelOp`. -/
def cseCalls (sig : Sig) (ts : List Template) : Except Err Result := do
  let groups := (buildGroups (collectCalls sig ts)).filter fun g => 2 ≤ g.length
  let st ← (groups.zipIdx.map fun x => (x.2, x.1)).foldlM (processGroup sig) ⟨[], [], []⟩
  let ts' := ts.zipIdx.map fun x =>
    ({ x.1 with sides := x.1.sides.map fun s =>
      (subst (st.done.get x.2) s.1, subst (st.done.get x.2) s.2) } : Template)
  .ok ⟨ts' ++ st.drivers, st.vars⟩

end Marco.CSE
