import Verif.Model.MCIM

/-!
# Model of the local matching solutions (`/repo/lib/Modeling/LocalMatchingSolutions*.cpp`)

A generator is represented by the list of the matrices it is still going to yield; the lists are
computed by the definitions of this file in the order in which `fetchNext` of the generators
computes them. `none` is undefined behaviour of the access functions.
-/

namespace Marco

namespace AccessFn

/-- AccessFunctionRotoTranslation.cpp:293-306, `countVariablesUsages`. -/
def countUsages (m : AffineMap) : List Nat :=
  (List.range m.dims).map fun d => (m.results.filter fun e => inductionVar e == some d).length

end AccessFn

namespace LocalMatching
open AccessFn

/-- LocalMatchingSolutionsVAF.cpp:294-301: the ranges of the dimensions that are not used. -/
def unusedRanges : List Nat → Box → Box
  | 0 :: us, r :: rs => r :: unusedRanges us rs
  | _ :: us, _ :: rs => unusedRanges us rs
  | _, _ => []

/-- LocalMatchingSolutionsVAF.cpp:340-343: the ranges of the used dimensions, and the given values
for the other ones. -/
def fillUnused : List Nat → Box → Point → Box
  | 0 :: us, _ :: rs, x :: xs => ⟨x, x + 1⟩ :: fillUnused us rs xs
  | (_ + 1) :: us, r :: rs, xs => r :: fillUnused us rs xs
  | _, _, _ => []

/-- LocalMatchingSolutionsVAF.cpp:272-355: the boxes to which the access is applied, for one box
of the equation indices (`enum` are the points in the order of the iterator of the box, see
C01). -/
def rotoPieces (us : List Nat) (b : Box) : List Box :=
  if (unusedRanges us b).isEmpty then [b]
  else (Props.enum (unusedRanges us b)).map (fillUnused us b)

/-- LocalMatchingSolutionsVAF.cpp:272-355, GeneratorRotoTranslation. -/
def genRoto (S : Simplifier) (eqs vars : IndexSet) (m : AffineMap) : Option (List MCIM) :=
  (eqs.ranges.flatMap (rotoPieces (countUsages m))).mapM fun b =>
    (MCIM.new eqs vars).apply S (IndexSet.ofRanges [b]) (.roto m)

/-- LocalMatchingSolutionsVAF.cpp:184-195, GeneratorAffineConstant. -/
def genAffConst (S : Simplifier) (eqs vars : IndexSet) (m : AffineMap) : Option (List MCIM) :=
  eqs.points.mapM fun p =>
    (MCIM.new eqs vars).apply S (IndexSet.ofPoints [p]) (.affConst m)

/-- LocalMatchingSolutionsVAF.cpp:84-117, GeneratorDefault. -/
def genDefault (S : Simplifier) (eqs vars : IndexSet) (f : AccessFn) : Option (List MCIM) := do
  let ls ← eqs.points.mapM fun e => do
    let t ← f.mapPoint e
    t.points.mapM fun v => (MCIM.new eqs vars).set S e v
  some ls.flatten

/-- LocalMatchingSolutionsVAF.cpp:517-531, `getGenerator`. -/
def generator (S : Simplifier) (eqs vars : IndexSet) : AccessFn → Option (List MCIM)
  | .affConst m => genAffConst S eqs vars m
  | .roto m => genRoto S eqs vars m
  | f => genDefault S eqs vars f

/-- LocalMatchingSolutionsVAF.cpp:503-511: the solutions of a box. -/
def unusedSize : List Nat → Box → Nat
  | 0 :: us, r :: rs => r.size * unusedSize us rs
  | _ :: us, _ :: rs => unusedSize us rs
  | _, _ => 1

/-- LocalMatchingSolutionsVAF.cpp:461-515, `getSolutionsAmount`. -/
def amount (eqs : IndexSet) : AccessFn → Option Nat
  | .affConst _ => some eqs.points.length
  | .const n rs => ((AccessFn.const n rs).mapSet IndexSet.empty).map fun t =>
      eqs.points.length * t.points.length
  | .roto m => some ((eqs.ranges.map (unusedSize (countUsages m))).sum)
  | f => (eqs.points.mapM fun e => (f.mapPoint e).map fun t => t.points.length).map List.sum

/-- include/marco/Modeling/LocalMatchingSolutionsVAF.h: the members of VAFSolutions. The list of the
access functions is already sorted (LocalMatchingSolutionsVAF.cpp:383-385; the comparison function
is not a strict weak order, hence the order is not modelled and the theorems are about any). -/
structure VAF where
  eqs : IndexSet
  vars : IndexSet
  fns : List AccessFn
  current : Nat
  gen : Option (List MCIM)
  matrices : List MCIM

/-- LocalMatchingSolutionsVAF.cpp:358-368, the constructor. -/
def VAF.new (fns : List AccessFn) (eqs vars : IndexSet) : VAF := ⟨eqs, vars, fns, 0, none, []⟩

/-- LocalMatchingSolutionsVAF.cpp:380-397, `size()`. -/
def VAF.size (st : VAF) : Option Nat := (st.fns.mapM (amount st.eqs)).map List.sum

/-- LocalMatchingSolutionsVAF.cpp:407-411: advance to the first generator with a value. The list is
that of the access functions from position `current` on. -/
def advance (S : Simplifier) (eqs vars : IndexSet) :
    List AccessFn → Nat → List MCIM → Option (Nat × List MCIM)
  | [], current, g => some (current, g)
  | f :: fs, current, g =>
    if g.isEmpty then (generator S eqs vars f).bind fun g' => advance S eqs vars fs (current + 1) g'
    else some (current, g)

/-- LocalMatchingSolutionsVAF.cpp:400-405: the first generator. Note that `currentAccessFunction`
is incremented twice. -/
def VAF.start (S : Simplifier) (st : VAF) : Option VAF :=
  match st.gen with
  | some _ => some st
  | none =>
    match st.fns[st.current]? with
    | none => some st
    | some f => (generator S st.eqs st.vars f).map fun g =>
      { st with gen := some g, current := st.current + 1 + 1 }

/-- LocalMatchingSolutionsVAF.cpp:399-419, `fetchNext`. -/
def VAF.fetchNext (S : Simplifier) (st : VAF) : Option VAF :=
  (st.start S).bind fun st =>
    match st.gen with
    | none => some st
    | some g => (advance S st.eqs st.vars (st.fns.drop st.current) st.current g).map fun (c, g) =>
      match g with
      | M :: g' => { st with current := c, gen := some g', matrices := st.matrices ++ [M] }
      | [] => { st with current := c, gen := none }

/-- The state after `n` calls of `fetchNext`. -/
def VAF.iter (S : Simplifier) : Nat → VAF → Option VAF
  | 0, st => some st
  | n + 1, st => (st.fetchNext S).bind (VAF.iter S n)

/-- LocalMatchingSolutionsVAF.cpp:370-378, `operator[]`; the loop performs at most `fuel` calls of
`fetchNext`. -/
def VAF.at (S : Simplifier) : Nat → VAF → Nat → Option (VAF × MCIM)
  | fuel, st, i =>
    match st.matrices[i]?, fuel with
    | some M, _ => some (st, M)
    | none, 0 => none
    | none, fuel + 1 => (st.fetchNext S).bind fun st => VAF.at S fuel st i

/-- LocalMatchingSolutions.h, iteration from `begin()` to `end()`. -/
def VAF.collect (S : Simplifier) (fuel : Nat) : List Nat → VAF → Option (List MCIM)
  | [], _ => some []
  | i :: is, st => (st.at S fuel i).bind fun (st, M) => (VAF.collect S fuel is st).map (M :: ·)

/-- LocalMatchingSolutions.cpp:64-69: all the solutions for a list of access functions. -/
def solveVAF (S : Simplifier) (fuel : Nat) (fns : List AccessFn) (eqs vars : IndexSet) :
    Option (List MCIM) :=
  let st := VAF.new fns eqs vars
  st.size.bind fun n => st.collect S fuel (List.range n)

/-- MCIM.cpp:585-602: the solutions of one group, moved to the spaces of the matrix. -/
def splitGroup (S : Simplifier) (fuel : Nat) (M : MCIM) (g : Group) : Option (List MCIM) := do
  let vals ← g.values
  let ls ← solveVAF S fuel [g.fn] g.keys vals
  some (ls.map fun N => { N with eqs := M.eqs, vars := M.vars })

/-- MCIM.cpp:604-610: the solutions of the additional points. -/
def splitPoints (S : Simplifier) (M : MCIM) : Option (List MCIM) :=
  M.points.points.mapM fun p => (MCIM.new M.eqs M.vars).set S (p.take M.eqs.rank)
    (p.drop (p.length - M.vars.rank))

/-- MCIM.cpp:582-613, `splitGroups`; LocalMatchingSolutionsMCIM.cpp:13-23, `compute`. -/
def solveMCIM (S : Simplifier) (fuel : Nat) (M : MCIM) : Option (List MCIM) := do
  let ls ← M.groups.mapM (splitGroup S fuel M)
  let ps ← splitPoints S M
  some (ls.flatten ++ ps)

/-- LocalMatchingSolutions.cpp:33-62, `isValidLocalMatchingSolution`, on the matrix of the values of
`get`. -/
def isValid (M : MCIM) : Option Bool := do
  let rows ← M.eqs.points.mapM fun e => M.vars.points.mapM fun v => M.get e v
  let cols ← M.vars.points.mapM fun v => M.eqs.points.mapM fun e => M.get e v
  some (rows.all (fun r => decide (r.count true ≤ 1)) && cols.all (fun c => decide (c.count true ≤ 1)))

end LocalMatching
end Marco
