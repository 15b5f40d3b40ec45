import Verif.Model.Serialization

/-!
# The map of the derivatives

`DerivativesMap` (include/marco/Dialect/BaseModelica/IR/DerivativesMap.h:12-70, lib/Dialect/BaseModelica/IR/DerivativesMap.cpp).
`LockedDerivativesMap` (DerivativesMap.cpp:448-496) forwards each call while it holds a mutex; it is not modelled.
-/

namespace Marco.Serial
open Marco IndexSet

/-- `llvm::MapVector` with symbols as keys: the entries in the order of their first insertion. -/
abbrev MapV (α : Type) := List (Sym × α)

/-- `MapVector::find`. -/
def MapV.look {α : Type} : MapV α → Sym → Option α
  | [], _ => none
  | (k', a) :: m, k => if k' = k then some a else MapV.look m k

/-- `map[k] = a`. -/
def MapV.put {α : Type} : MapV α → Sym → α → MapV α
  | [], k, a => [(k, a)]
  | (k', b) :: m, k, a => if k' = k then (k', a) :: m else (k', b) :: MapV.put m k a

/-- The fields, DerivativesMap.h:64-69. -/
structure DMap where
  ders : MapV Sym
  idx : MapV IndexSet
  inv : MapV Sym

/-- A new map. -/
def DMap.empty : DMap := ⟨[], [], []⟩

/-- DerivativesMap.cpp:397-406, `getDerivative`. -/
def DMap.getDerivative (m : DMap) (v : Sym) : Option Sym := m.ders.look v

/-- DerivativesMap.cpp:409-413, `setDerivative`. -/
def DMap.setDerivative (m : DMap) (v d : Sym) : DMap := { m with ders := m.ders.put v d, inv := m.inv.put d v }

/-- DerivativesMap.cpp:415-425, `getDerivedIndices`. -/
def DMap.getDerivedIndices (m : DMap) (v : Sym) : Option IndexSet := m.idx.look v

/-- DerivativesMap.cpp:427-430, `setDerivedIndices`. -/
def DMap.setDerivedIndices (m : DMap) (v : Sym) (s : IndexSet) : DMap := { m with idx := m.idx.put v s }

/-- DerivativesMap.cpp:432-435, `addDerivedIndices`; `plus` is the `operator+=` of index sets, and a missing entry is made
first. -/
def DMap.addDerivedIndices (plus : IndexSet → IndexSet → IndexSet) (m : DMap) (v : Sym) (s : IndexSet) : DMap :=
  { m with idx := m.idx.put v (plus ((m.idx.look v).getD .empty) s) }

/-- DerivativesMap.cpp:437-446, `getDerivedVariable`. -/
def DMap.getDerivedVariable (m : DMap) (d : Sym) : Option Sym := m.inv.look d

/-- DerivativesMap.cpp:383-393, `getDerivedVariables`. -/
def DMap.getDerivedVariables (m : DMap) : List Sym := m.ders.map (·.1)

/-- DerivativesMap.cpp:9-25, `mapsEqual`; `eqv` is `==` of the values. -/
def mapsEqual {α : Type} (eqv : α → α → Bool) (m n : MapV α) : Bool :=
  m.length == n.length && m.all fun e =>
    match n.look e.1 with
    | some b => eqv b e.2
    | none => false

/-- DerivativesMap.cpp:29-33, `operator==`. -/
def DMap.eq (m n : DMap) : Bool :=
  mapsEqual (· == ·) m.ders n.ders && mapsEqual IndexSet.eq m.idx n.idx && mapsEqual (· == ·) m.inv n.inv

/-- DerivativesMap.cpp:190-196, `hash`: the sequences that are hashed. -/
def DMap.hashed (m : DMap) : MapV Sym × MapV (List Box) × MapV Sym :=
  (m.ders, m.idx.map fun e => (e.1, e.2.ranges), m.inv)

/-! ### Attributes -/

/-- DerivativesMap.cpp:44-48 and 59-63: an entry of two symbols. -/
def attrOfPair (k a : String) (e : Sym × Sym) : Attr := .dict [(k, .sym e.1), (a, .sym e.2)]

/-- DerivativesMap.cpp:35-75, `asAttribute`. -/
def attrOfDMap (m : DMap) : Attr :=
  .dict [("derivatives", .arr (m.ders.map (attrOfPair "variable" "derivative"))),
    ("derivedIndices", .arr (m.idx.map fun e => .dict [("variable", .sym e.1), ("indices", attrOfSet e.2)])),
    ("inverseDerivatives", .arr (m.inv.map (attrOfPair "derivative" "variable")))]

/-- DerivativesMap.cpp:95-117 and 162-185: the entries of two symbols. -/
def putPairs (k a : String) : MapV Sym → List Attr → Out (MapV Sym)
  | m, [] => .ok m
  | m, .dict e :: l =>
    match get e k, get e a with
    | some (.sym v), some (.sym d) => putPairs k a (m.put v d) l
    | _, _ => .error .syntax
  | _, _ => .error .syntax

/-- DerivativesMap.cpp:128-152: the entries with indices; `dyn_cast` on a null attribute is undefined. -/
def putIndices (fuel : Nat) : MapV IndexSet → List Attr → Out (MapV IndexSet)
  | m, [] => .ok m
  | m, .dict e :: l =>
    match get e "variable" with
    | some (.sym v) =>
      match get e "indices" with
      | some a => do
        let s ← setOfAttr fuel .empty a
        putIndices fuel (m.put v s) l
      | none => .error .undefined
    | _ => .error .syntax
  | _, _ => .error .syntax

/-- DerivativesMap.cpp:77-188, `setFromAttr`: the entries are put into the map given. -/
def dmapOfAttr (fuel : Nat) (m : DMap) : Attr → Out DMap
  | .dict l =>
    match get l "derivatives" with
    | some (.arr ds) => do
      let ders ← putPairs "variable" "derivative" m.ders ds
      match get l "derivedIndices" with
      | some (.arr is) => do
        let idx ← putIndices fuel m.idx is
        match get l "inverseDerivatives" with
        | some (.arr vs) => do
          let inv ← putPairs "derivative" "variable" m.inv vs
          .ok ⟨ders, idx, inv⟩
        | _ => .error .syntax
      | _ => .error .syntax
    | _ => .error .syntax
  | _ => .error .syntax

/-! ### Bytecode -/

/-- DerivativesMap.cpp:266-271 and 280-285: the entries of two symbols. -/
def writePairs (m : MapV Sym) : List Item := .nat m.length :: m.flatMap fun e => [.sym e.1, .sym e.2]

/-- DerivativesMap.cpp:273-278: the entries with indices. -/
def writeIndices (m : MapV IndexSet) : Out (List Item) := do
  let es ← m.mapM fun e => do
    let s ← writeSet e.2
    .ok (.sym e.1 :: s)
  .ok (.nat m.length :: es.flatten)

/-- DerivativesMap.cpp:264-286, `writeToMlirBytecode`. -/
def writeDMap (m : DMap) : Out (List Item) := do
  let is ← writeIndices m.idx
  .ok (writePairs m.ders ++ (is ++ writePairs m.inv))

/-- DerivativesMap.cpp:208-221 and 246-259. -/
def readPairs : Nat → MapV Sym → List Item → Out (MapV Sym × List Item)
  | 0, m, ts => .ok (m, ts)
  | n + 1, m, .sym a :: .sym b :: ts => readPairs n (m.put a b) ts
  | _, _, _ => .error .syntax

/-- DerivativesMap.cpp:227-240. -/
def readIndices (fuel : Nat) : Nat → MapV IndexSet → List Item → Out (MapV IndexSet × List Item)
  | 0, m, ts => .ok (m, ts)
  | n + 1, m, .sym v :: ts => do
    let (s, ts) ← readSet fuel .empty ts
    readIndices fuel n (m.put v s) ts
  | _, _, _ => .error .syntax

/-- DerivativesMap.cpp:198-262, `readFromMlirBytecode`. -/
def readDMap (fuel : Nat) (m : DMap) : List Item → Out (DMap × List Item)
  | .nat a :: ts => do
    let (ders, ts) ← readPairs a m.ders ts
    match ts with
    | .nat b :: ts => do
      let (idx, ts) ← readIndices fuel b m.idx ts
      match ts with
      | .nat c :: ts => do
        let (inv, ts) ← readPairs c m.inv ts
        .ok (⟨ders, idx, inv⟩, ts)
      | _ => .error .syntax
    | _ => .error .syntax
  | _ => .error .syntax

/-! ### Texts -/

/-- DerivativesMap.cpp:344-364, the comparison of two variables (a symbol has at least its root). -/
def symLess : Sym → Sym → Bool
  | a :: s, b :: t => if a = b then symLess s t else decide (a < b)
  | _, _ => false

/-- DerivativesMap.cpp:368-378: an entry; the derivative of a variable of the list exists. -/
def printEntry (m : DMap) (v : Sym) : List Tok :=
  .less :: .sym v :: .comma :: (match m.getDerivative v with | some d => .sym d | none => .kw "None") ::
    ((match m.getDerivedIndices v with
      | some s => if s.isEmpty then [] else .comma :: printSet s
      | none => []) ++ [.greater])

/-- DerivativesMap.cpp:337-381, `print`; `sort` is `llvm::sort` with `symLess`. -/
def printDMap (sort : List Sym → List Sym) (m : DMap) : List Tok := printList (printEntry m) (sort m.getDerivedVariables)

/-- DerivativesMap.cpp:295-326: the body of the loop. -/
def parseEntry (fuel : Nat) (m : DMap) : List Tok → Out (DMap × List Tok)
  | .less :: .sym v :: .comma :: .sym d :: ts =>
    let m := m.setDerivative v d
    match ts with
    | .comma :: ts => do
      let (s, ts) ← parseSet fuel .empty ts
      match ts with
      | .greater :: ts => .ok (m.setDerivedIndices v s, ts)
      | _ => .error .syntax
    | .greater :: ts => .ok (m.setDerivedIndices v .empty, ts)
    | _ => .error .syntax
  | _ => .error .syntax

/-- DerivativesMap.cpp:294-331: the loop. The first argument bounds the number of entries. -/
def parseEntries (fuel : Nat) : Nat → DMap → List Tok → Out (DMap × List Tok)
  | 0, _, _ => .error .syntax
  | n + 1, m, ts => do
    let (m, ts) ← parseEntry fuel m ts
    match ts with
    | .comma :: ts => parseEntries fuel n m ts
    | .rsq :: ts => .ok (m, ts)
    | _ => .error .syntax

/-- DerivativesMap.cpp:288-335, `parse`. -/
def parseDMap (fuel : Nat) (m : DMap) : List Tok → Out (DMap × List Tok)
  | .lsq :: .rsq :: ts => .ok (m, ts)
  | .lsq :: ts => parseEntries fuel ts.length m ts
  | _ => .error .syntax

end Marco.Serial
