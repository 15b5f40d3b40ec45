import Verif.Model.AccessFunction

/-!
# Model of the incidence matrix `marco::modeling::MCIM` (`/repo/lib/Modeling/MCIM.cpp`) and of its
groups (`/repo/lib/Modeling/MCIMGroup*.cpp`)

Simplifications: the in-place updates `+=` and `-=` of index sets are represented by rebuilding the
set with the same points (see `IndexSet.union`, `IndexSet.minus`); the shared pointers to the
spaces are the spaces themselves. `none` is undefined behaviour of the access functions.
-/

namespace Marco

/-- `IndexSet::operator-=(IndexSet)` at the level of sets (IndexSet.cpp:365-373): the pieces of the
stored ranges that are left after subtracting the ranges of the other set. -/
def IndexSet.minus (s t : IndexSet) : IndexSet :=
  IndexSet.ofRanges (t.ranges.foldl (fun l r => l.flatMap fun x => Box.subtract x r) s.ranges)

namespace DimAccess

/-- `operator==`: DimensionAccess{Constant,Dimension,Add,Sub,Mul,Div,Range,Indices}.cpp; the
iteration spaces are compared by address (DimensionAccessIndices.cpp:28-31). -/
def beq : DimAccess → DimAccess → Bool
  | const v, const w => v == w
  | dim d, dim e => d == e
  | add a b, add c d => beq a c && beq b d
  | sub a b, sub c d => beq a c && beq b d
  | mul a b, mul c d => beq a c && beq b d
  | div a b, div c d => beq a c && beq b d
  | range r, range q => r == q
  | indices k _ d _, indices k' _ d' _ => k == k' && d == d'
  | _, _ => false

end DimAccess

namespace AccessFn

/-- The loop over `llvm::zip` of AccessFunctionGeneric.cpp:82-87 (it stops at the end of the
shorter list). -/
def zipEq : List DimAccess → List DimAccess → Bool
  | a :: as, b :: bs => a.beq b && zipEq as bs
  | _, _ => true

/-- `operator==`: AccessFunctionEmpty.cpp:32-42, AccessFunctionAffineConstant.cpp:45-57,
AccessFunctionRotoTranslation.cpp:67-79, AccessFunctionGeneric.cpp:68-90 (inherited by
AccessFunctionConstant). -/
def beq : AccessFn → AccessFn → Bool
  | .empty _, .empty _ => true
  | .affConst m, .affConst m' => m == m'
  | .roto m, .roto m' => m == m'
  | .const n rs, .const n' rs' => n == n' && zipEq rs rs'
  | .generic n rs, .generic n' rs' => n == n' && zipEq rs rs'
  | .const n rs, .generic n' rs' => n == n' && zipEq rs rs'
  | .generic n rs, .const n' rs' => n == n' && zipEq rs rs'
  | _, _ => false

end AccessFn

/-- The classes MCIMGroupGeneric, MCIMGroupAffineConstant, MCIMGroupEmpty. -/
inductive GroupKind where
  | generic | affConst | empty
deriving DecidableEq, Repr

/-- include/marco/Modeling/MCIMGroup.h and MCIMGroupGeneric.h: an access function and the equation
indices (`keys`) at which it is applied. -/
structure Group where
  kind : GroupKind
  fn : AccessFn
  keys : IndexSet

namespace Group

/-- MCIMGroup.cpp:9-20, `build` (no keys). -/
def build (f : AccessFn) : Group :=
  match f with
  | .affConst m => ⟨.affConst, .affConst m, IndexSet.empty⟩
  | .empty m => ⟨.empty, .empty m, IndexSet.empty⟩
  | f => ⟨.generic, f, IndexSet.empty⟩

/-- MCIMGroupGeneric.cpp:34, `addKeys`. -/
def addKeys (g : Group) (s : IndexSet) : Group := { g with keys := g.keys.union s }

/-- MCIMGroupGeneric.cpp:36-38, `removeKeys`. -/
def removeKeys (g : Group) (s : IndexSet) : Group := { g with keys := g.keys.minus s }

/-- The member `mapped` of MCIMGroupAffineConstant.cpp:11-17. -/
def mapped (g : Group) : Option IndexSet :=
  match g.fn with
  | .affConst m =>
    if m.results.isEmpty then some IndexSet.empty
    else (AccessFn.constResults m).map fun q => IndexSet.ofPoints [q]
  | _ => some IndexSet.empty

/-- `getValues`: MCIMGroupGeneric.cpp:40-42, MCIMGroupEmpty.cpp:24-30. -/
def values (g : Group) : Option IndexSet :=
  match g.kind with
  | .empty => some (if g.keys.isEmpty then IndexSet.empty else IndexSet.ofPoints [[0]])
  | _ => g.fn.mapSet g.keys

/-- `has`: MCIMGroupGeneric.cpp:53-55, MCIMGroupAffineConstant.cpp:38-40,
MCIMGroupEmpty.cpp:42-44. -/
def has (g : Group) (e v : Point) : Option Bool :=
  match g.kind with
  | .generic =>
    if g.keys.containsPoint e then (g.fn.mapPoint e).map fun t => t.containsPoint v
    else some false
  | .affConst => g.mapped.map fun t => g.keys.containsPoint e && t.containsPoint v
  | .empty => some (g.keys.containsPoint e && v == [0])

/-- `set`: MCIMGroupGeneric.cpp:57-62, MCIMGroupAffineConstant.cpp:42-49,
MCIMGroupEmpty.cpp:46-53. -/
def set (S : Simplifier) (g : Group) (e v : Point) : Option (Group × Bool) :=
  match g.kind with
  | .generic =>
    (g.fn.inverseMap S (IndexSet.ofPoints [v]) (IndexSet.ofPoints [e])).map fun k =>
      (g.addKeys k, !k.isEmpty)
  | .affConst => g.mapped.map fun t =>
    if t.containsPoint v then (g.addKeys (IndexSet.ofPoints [e]), true) else (g, false)
  | .empty => some
    (if v == [0] then (g.addKeys (IndexSet.ofPoints [e]), true) else (g, false))

/-- `unset`: MCIMGroupGeneric.cpp:64-69, MCIMGroupAffineConstant.cpp:51-58,
MCIMGroupEmpty.cpp:55-62. -/
def unset (S : Simplifier) (g : Group) (e v : Point) : Option (Group × Bool) :=
  match g.kind with
  | .generic =>
    (g.fn.inverseMap S (IndexSet.ofPoints [v]) (IndexSet.ofPoints [e])).map fun k =>
      (g.removeKeys k, !k.isEmpty)
  | .affConst => g.mapped.map fun t =>
    if t.containsPoint v then (g.removeKeys (IndexSet.ofPoints [e]), true) else (g, false)
  | .empty => some
    (if v == [0] then (g.removeKeys (IndexSet.ofPoints [e]), true) else (g, false))

/-- MCIMGroupGeneric.cpp:71-76, `filterKeys`: the result is a generic group. -/
def filterKeys (g : Group) (filter : IndexSet) : Group :=
  ⟨.generic, g.fn, IndexSet.empty.union (g.keys.intersectSet filter)⟩

/-- `filterValues`: MCIMGroupGeneric.cpp:78-84, MCIMGroupAffineConstant.cpp:60-69,
MCIMGroupEmpty.cpp:64-73. The result is a generic group. -/
def filterValues (S : Simplifier) (g : Group) (filter : IndexSet) : Option Group :=
  match g.kind with
  | .generic => do
    let vals ← g.values
    let k ← g.fn.inverseMap S (vals.intersectSet filter) g.keys
    some ⟨.generic, g.fn, IndexSet.empty.union k⟩
  | .affConst => g.mapped.map fun t =>
    ⟨.generic, g.fn, if filter.containsSet t then IndexSet.empty.union g.keys else IndexSet.empty⟩
  | .empty => some
    ⟨.generic, g.fn, if filter.containsPoint [0] then IndexSet.empty.union g.keys else IndexSet.empty⟩

end Group

/-- include/marco/Modeling/MCIM.h: the equation space, the variable space, the groups and the
additional incidences. -/
structure MCIM where
  eqs : IndexSet
  vars : IndexSet
  groups : List Group
  points : IndexSet

namespace MCIM

/-- MCIM.cpp:84-91, the constructor. -/
def new (eqs vars : IndexSet) : MCIM := ⟨eqs, vars, [], IndexSet.empty⟩

/-- MCIM.cpp:393-405: add the keys to the first group with the same access function, or to a new
group at the end. -/
def addToGroup (f : AccessFn) (keys : IndexSet) : List Group → List Group
  | [] => [(Group.build f).addKeys keys]
  | g :: gs => if g.fn.beq f then g.addKeys keys :: gs else g :: addToGroup f keys gs

/-- MCIM.cpp:387-407, `apply(IndexSet, AccessFunction)`. -/
def apply (S : Simplifier) (M : MCIM) (eqs : IndexSet) (f : AccessFn) : Option MCIM := do
  let img ← f.mapSet eqs
  let keys ← f.inverseMap S (img.intersectSet M.vars) eqs
  some (if keys.isEmpty then M else { M with groups := addToGroup f keys M.groups })

/-- `llvm::any_of` over the groups (MCIM.cpp:420-422). -/
def anyHas (e v : Point) : List Group → Option Bool
  | [] => some false
  | g :: gs => (g.has e v).bind fun b => if b then some true else anyHas e v gs

/-- MCIM.cpp:409-423, `get`. -/
def get (M : MCIM) (e v : Point) : Option Bool :=
  if M.points.containsPoint (e ++ v) then some true else anyHas e v M.groups

/-- The loop of MCIM.cpp:434-436. -/
def setGroups (S : Simplifier) (e v : Point) : List Group → Option (List Group × Bool)
  | [] => some ([], false)
  | g :: gs => do
    let (g', b) ← g.set S e v
    let (gs', b') ← setGroups S e v gs
    some (g' :: gs', b || b')

/-- MCIM.cpp:425-441, `set`. -/
def set (S : Simplifier) (M : MCIM) (e v : Point) : Option MCIM := do
  let (gs, b) ← setGroups S e v M.groups
  some { M with
    groups := gs
    points := if b then M.points else M.points.addPoint (e ++ v) }

/-- The loop of MCIM.cpp:452-458: the groups that survive. -/
def unsetGroups (S : Simplifier) (e v : Point) : List Group → Option (List Group)
  | [] => some []
  | g :: gs => do
    let (g', b) ← g.unset S e v
    let gs' ← unsetGroups S e v gs
    some (if b && !g'.keys.isEmpty then g' :: gs' else gs')

/-- MCIM.cpp:443-462, `unset`. -/
def unset (S : Simplifier) (M : MCIM) (e v : Point) : Option MCIM := do
  let gs ← unsetGroups S e v M.groups
  some { M with groups := gs, points := M.points.minus (IndexSet.ofPoints [e ++ v]) }

/-- MCIM.cpp:254-282, `operator+=`. -/
def plus (S : Simplifier) (M N : MCIM) : Option MCIM := do
  let A ← N.groups.foldlM (fun A g => apply S A g.keys g.fn) M
  N.points.points.foldlM (fun A p => set S A (p.take M.eqs.rank)
    (p.drop (p.length - M.vars.rank))) A

/-- MCIM.cpp:301-328: the keys of `g` that remain after the group `h` of the right operand. -/
def minusGroup (S : Simplifier) (h g : Group) : Option Group :=
  if g.fn.beq h.fn then some (g.removeKeys h.keys)
  else do
    let hv ← h.values
    let gv ← g.values
    let common := hv.intersectSet gv
    if common.isEmpty then some g
    else do
      let lk ← g.fn.inverseMap S common g.keys
      if lk.isEmpty then some g
      else do
        let rk ← h.fn.inverseMap S common h.keys
        if rk.isEmpty then some g else some (g.removeKeys (lk.intersectSet rk))

/-- MCIM.cpp:334-347: remove the keys at the additional points of the right operand. -/
def minusPoints (S : Simplifier) (er vr : Nat) : List Box → Group → Option Group
  | [], g => some g
  | r :: rs, g => do
    let k ← g.fn.inverseMap S (IndexSet.ofRanges [Box.takeLast r vr]) g.keys
    minusPoints S er vr rs (g.removeKeys (k.intersectBox (Box.takeFirst r er)))

/-- MCIM.cpp:332-353: the groups that survive. -/
def minusTail (S : Simplifier) (er vr : Nat) (rs : List Box) : List Group → Option (List Group)
  | [] => some []
  | g :: gs => do
    let g' ← if g.keys.isEmpty then some g else minusPoints S er vr rs g
    let gs' ← minusTail S er vr rs gs
    some (if g'.keys.isEmpty then gs' else g' :: gs')

/-- MCIM.cpp:290-369, `operator-=`. -/
def minus (S : Simplifier) (M N : MCIM) : Option MCIM := do
  let gs ← N.groups.foldlM (fun gs h => gs.mapM (minusGroup S h)) M.groups
  let gs ← minusTail S N.eqs.rank N.vars.rank N.points.ranges gs
  some { M with groups := gs, points := M.points.minus N.points }

/-- MCIM.cpp:471-480, `flattenRows`. -/
def flattenRows (M : MCIM) : Option IndexSet :=
  (M.groups.foldlM (fun s (g : Group) => g.values.map s.union) IndexSet.empty).map fun s =>
    s.union (M.points.takeLast M.vars.rank)

/-- MCIM.cpp:482-491, `flattenColumns`. -/
def flattenColumns (M : MCIM) : IndexSet :=
  (M.groups.foldl (fun s g => s.union g.keys) IndexSet.empty).union
    (M.points.takeFirst M.eqs.rank)

/-- MCIM.cpp:493-514, `filterRows`. -/
def filterRows (M : MCIM) (filter : IndexSet) : MCIM :=
  let rows := (M.points.takeFirst M.eqs.rank).intersectSet filter
  { M with
    groups := (M.groups.map fun g => g.filterKeys filter).filter fun g => !g.keys.isEmpty
    points := if rows.isEmpty then IndexSet.empty
      else IndexSet.empty.union (M.points.intersectSet (rows.append M.vars)) }

/-- MCIM.cpp:516-537, `filterColumns`. -/
def filterColumns (S : Simplifier) (M : MCIM) (filter : IndexSet) : Option MCIM := do
  let gs ← M.groups.mapM fun g => g.filterValues S filter
  let cols := (M.points.takeLast M.vars.rank).intersectSet filter
  some { M with
    groups := gs.filter fun g => !g.keys.isEmpty
    points := if cols.isEmpty then IndexSet.empty
      else IndexSet.empty.union (M.points.intersectSet (cols.prepend M.eqs)) }

end MCIM
end Marco
