import Verif.Model.RTreeUpdate

/-!
# Model of the textual, binary and attribute forms of the properties of operations
(`/repo/lib/Dialect/Modeling/IR/Properties.cpp`, `/repo/lib/Dialect/BaseModelica/IR/Properties.cpp`)

A text is a list of tokens. The lexer is that of MLIR: a number, also a negative one, is one token here, and so is a symbol
reference. Bytecode is a list of numbers and attributes.
-/

namespace Marco.Serial
open Marco RTree IndexSet

/-- A symbol reference: the root reference and the nested ones. -/
abbrev Sym := List String

/-- The tokens. -/
inductive Tok where
  | lbrace | rbrace | lsq | rsq | less | greater | comma
  | int (v : Int)
  | sym (s : Sym)
  | kw (s : String)
deriving DecidableEq, Repr

/-- What bytecode consists of. -/
inductive Item where
  | nat (n : Nat)
  | int (v : Int)
  | sym (s : Sym)
deriving DecidableEq, Repr

/-- The attributes used. -/
inductive Attr where
  | sym (s : Sym)
  | str (s : String)
  | box (b : Box)
  | arr (l : List Attr)
  | dict (l : List (String × Attr))

/-- Why there is no result. -/
inductive Err where
  /-- an error is reported -/
  | syntax
  /-- undefined behaviour (or not enough fuel for the updates of index sets) -/
  | undefined
deriving DecidableEq, Repr

abbrev Out := Except Err

/-! ### Index sets -/

/-- `prop += range` on an index set: `IndexSet::operator+=` (lib/Modeling/IndexSet.cpp:281-284). The ranges of a set have the
same rank (asserted). -/
def addBox (fuel : Nat) (s : IndexSet) (b : Box) : Out IndexSet :=
  if s.ranges.any fun r => r.length != b.length then .error .undefined
  else match insertBox cfg fuel s b with
    | .ok s => .ok s
    | .error _ => .error .undefined

/-- Modeling/IR/Properties.cpp:143-148: a range with both ends included. -/
def printBox (b : Box) : List Tok := b.flatMap fun r => [.lsq, .int r.b, .comma, .int (r.e - 1), .rsq]

/-- `llvm::interleave`: a comma between the elements. -/
def commas : List (List Tok) → List Tok
  | [] => []
  | [t] => t
  | t :: ts => t ++ .comma :: commas ts

/-- Modeling/IR/Properties.cpp:136-152, `print(IndexSet)`. -/
def printSet (s : IndexSet) : List Tok := .lbrace :: (commas (s.compactRanges.map printBox) ++ [.rbrace])

/-- Modeling/IR/Properties.cpp:114-123: the dimensions of a range, after the first bracket. -/
def parseDims : List Tok → Option (Box × List Tok)
  | .int b :: .comma :: .int e :: .rsq :: .lsq :: ts =>
    (parseDims ts).map fun (r, ts) => (⟨b, e + 1⟩ :: r, ts)
  | .int b :: .comma :: .int e :: .rsq :: ts => some ([⟨b, e + 1⟩], ts)
  | _ => none

/-- Modeling/IR/Properties.cpp:107-126: the ranges; `Range` asserts that the begin is before the end. The first argument bounds
the number of ranges. -/
def parseBoxes (fuel : Nat) : Nat → IndexSet → List Tok → Out (IndexSet × List Tok)
  | n + 1, s, .lsq :: ts =>
    match parseDims ts with
    | none => .error .syntax
    | some (b, ts) =>
      if b.all fun r => r.b < r.e then do
        let s ← addBox fuel s b
        match ts with
        | .comma :: ts => parseBoxes fuel n s ts
        | ts => .ok (s, ts)
      else .error .undefined
  | _, _, _ => .error .syntax

/-- Modeling/IR/Properties.cpp:99-134, `parse(IndexSet)`: the ranges are added to the set given. -/
def parseSet (fuel : Nat) (s : IndexSet) : List Tok → Out (IndexSet × List Tok)
  | .lbrace :: .rbrace :: ts => .ok (s, ts)
  | .lbrace :: ts => do
    let (s, ts) ← parseBoxes fuel ts.length s ts
    match ts with
    | .rbrace :: ts => .ok (s, ts)
    | _ => .error .syntax
  | _ => .error .syntax

/-- Modeling/IR/Properties.cpp:29-41, `getPropertiesAsAttribute(IndexSet)`. -/
def attrOfSet (s : IndexSet) : Attr := .arr (s.compactRanges.map .box)

/-- Modeling/IR/Properties.cpp:21-24: the loop; `getAsRange` asserts the kind of the elements. -/
def addAttrs (fuel : Nat) : IndexSet → List Attr → Out IndexSet
  | s, [] => .ok s
  | s, .box b :: l => do
    let s ← addBox fuel s b
    addAttrs fuel s l
  | _, _ => .error .undefined

/-- Modeling/IR/Properties.cpp:11-27, `setPropertiesFromAttribute(IndexSet)`. -/
def setOfAttr (fuel : Nat) (s : IndexSet) : Attr → Out IndexSet
  | .arr l => addAttrs fuel s l
  | _ => .error .syntax

/-- Modeling/IR/Properties.cpp:90-95: the first `rank` dimensions of a range. -/
def writeBox (rank : Nat) (b : Box) : Out (List Item) :=
  if b.length < rank then .error .undefined
  else .ok ((b.take rank).flatMap fun r => [.int r.b, .int r.e])

/-- Modeling/IR/Properties.cpp:82-97, `writeToMlirBytecode(IndexSet)`. -/
def writeSet (s : IndexSet) : Out (List Item) := do
  let bs ← s.compactRanges.mapM (writeBox s.rank)
  .ok (.nat s.rank :: .nat s.compactRanges.length :: bs.flatten)

/-- Modeling/IR/Properties.cpp:62-74: the dimensions of a range. -/
def readDims : Nat → List Item → Out (Box × List Item)
  | 0, ts => .ok ([], ts)
  | n + 1, .int b :: .int e :: ts => do
    let (r, ts) ← readDims n ts
    .ok (⟨b, e⟩ :: r, ts)
  | _, _ => .error .syntax

/-- Modeling/IR/Properties.cpp:59-77: the ranges. -/
def readBoxes (fuel rank : Nat) : Nat → IndexSet → List Item → Out (IndexSet × List Item)
  | 0, s, ts => .ok (s, ts)
  | n + 1, s, ts => do
    let (b, ts) ← readDims rank ts
    if b.all fun r => r.b < r.e then do
      let s ← addBox fuel s b
      readBoxes fuel rank n s ts
    else .error .undefined

/-- Modeling/IR/Properties.cpp:45-80, `readFromMlirBytecode(IndexSet)`. -/
def readSet (fuel : Nat) (s : IndexSet) : List Item → Out (IndexSet × List Item)
  | .nat rank :: .nat n :: ts => readBoxes fuel rank n s ts
  | _ => .error .syntax

/-! ### Lists -/

/-- The loops that parse a list without brackets: elements separated by commas. The element is parsed into a local variable
`σ`, declared before the loop; what is left in it when the element has been moved into the list is there for the next one. The
first argument bounds the number of elements. -/
def parseLoop {α σ : Type} (item : σ → List Tok → Out ((α × σ) × List Tok)) : Nat → σ → List Tok → Out (List α × List Tok)
  | 0, _, _ => .error .syntax
  | n + 1, st, ts => do
    let ((a, st), ts) ← item st ts
    match ts with
    | .comma :: ts => do
      let (as, ts) ← parseLoop item n st ts
      .ok (a :: as, ts)
    | ts => .ok ([a], ts)

/-- A list in square brackets: Modeling/IR/Properties.cpp:220-242, BaseModelica/IR/Properties.cpp:207-229 and 446-468. -/
def parseList {α σ : Type} (item : σ → List Tok → Out ((α × σ) × List Tok)) (st : σ) : List Tok → Out (List α × List Tok)
  | .lsq :: .rsq :: ts => .ok ([], ts)
  | .lsq :: ts => do
    let (as, ts) ← parseLoop item ts.length st ts
    match ts with
    | .rsq :: ts => .ok (as, ts)
    | _ => .error .syntax
  | _ => .error .syntax

/-- Modeling/IR/Properties.cpp:244-251, BaseModelica/IR/Properties.cpp:231-239 and 470-478. -/
def printList {α : Type} (item : α → List Tok) (l : List α) : List Tok := .lsq :: (commas (l.map item) ++ [.rsq])

/-- Writing a list: its size and the elements. Modeling/IR/Properties.cpp:211-218, BaseModelica/IR/Properties.cpp:198-205 and
437-444. -/
def writeList {α : Type} (item : α → Out (List Item)) (l : List α) : Out (List Item) := do
  let bs ← l.mapM item
  .ok (.nat l.length :: bs.flatten)

/-- Reading elements into new entries of the list. -/
def readLoop {α : Type} (item : List Item → Out (α × List Item)) : Nat → List Item → Out (List α × List Item)
  | 0, ts => .ok ([], ts)
  | n + 1, ts => do
    let (a, ts) ← item ts
    let (as, ts) ← readLoop item n ts
    .ok (a :: as, ts)

/-- Modeling/IR/Properties.cpp:194-209, BaseModelica/IR/Properties.cpp:180-196 and 420-435. -/
def readList {α : Type} (item : List Item → Out (α × List Item)) : List Item → Out (List α × List Item)
  | .nat n :: ts => readLoop item n ts
  | _ => .error .syntax

/-- Modeling/IR/Properties.cpp:178-188, BaseModelica/IR/Properties.cpp:164-174 and 404-414. -/
def attrOfList {α : Type} (item : α → Attr) (l : List α) : Attr := .arr (l.map item)

/-- Modeling/IR/Properties.cpp:158-176, BaseModelica/IR/Properties.cpp:144-162 and 384-402. -/
def listOfAttr {α : Type} (item : Attr → Out α) : Attr → Out (List α)
  | .arr l => l.mapM item
  | _ => .error .syntax

/-- Modeling/IR/Properties.cpp:220-242, `parse(IndexSetsList)`. Moving an index set leaves an empty tree, but `initialized` and
`allowedRank` keep their values (RTree.h:533, the default move constructor). -/
def parseSets (fuel : Nat) : List Tok → Out (List IndexSet × List Tok) :=
  parseList (fun cur ts => do
    let (s, ts) ← parseSet fuel cur ts
    .ok ((s, s.emptyCopy), ts)) IndexSet.empty

/-! ### Variables with indices -/

/-- `Variable` (BaseModelica/IR/Properties.h:20-49): the name (null in a default constructed one) and the indices. -/
structure Var where
  name : Option Sym
  indices : IndexSet

/-- A name; a null attribute prints as a text that is no attribute. -/
def printName : Option Sym → Tok
  | some n => .sym n
  | none => .kw "<<NULL ATTRIBUTE>>"

/-- BaseModelica/IR/Properties.cpp:123-138, `print(Variable)`. -/
def printVar (v : Var) : List Tok :=
  if v.indices.isEmpty then [printName v.name]
  else .less :: printName v.name :: .comma :: (printSet v.indices ++ [.greater])

/-- BaseModelica/IR/Properties.cpp:97-121, `parse(Variable)`. -/
def parseVar (fuel : Nat) (v : Var) : List Tok → Out (Var × List Tok)
  | .less :: .sym n :: .comma :: ts => do
    let (s, ts) ← parseSet fuel v.indices ts
    match ts with
    | .greater :: ts => .ok (⟨some n, s⟩, ts)
    | _ => .error .syntax
  | .less :: .sym n :: .greater :: ts => .ok (⟨some n, v.indices⟩, ts)
  | .sym n :: ts => .ok (⟨some n, v.indices⟩, ts)
  | _ => .error .syntax

/-- BaseModelica/IR/Properties.cpp:207-229, `parse(VariablesList)`; see `parseSets`. -/
def parseVars (fuel : Nat) : List Tok → Out (List Var × List Tok) :=
  parseList (fun cur ts => do
    let (v, ts) ← parseVar fuel cur ts
    .ok ((v, ⟨v.name, v.indices.emptyCopy⟩), ts)) ⟨none, IndexSet.empty⟩

/-- BaseModelica/IR/Properties.cpp:28-40, `Variable::asAttribute`. -/
def attrOfVar (v : Var) : Attr :=
  match v.name with
  | some n => .dict [("name", .sym n), ("indices", attrOfSet v.indices)]
  | none => .dict []

/-- The entry of a dictionary. -/
def get (l : List (String × Attr)) (k : String) : Option Attr := (l.find? fun e => e.1 == k).map (·.2)

/-- BaseModelica/IR/Properties.cpp:42-69, `Variable::setFromAttr`; `dyn_cast` on a null attribute is undefined. -/
def varOfAttr (fuel : Nat) (v : Var) : Attr → Out Var
  | .dict l =>
    match get l "name" with
    | some (.sym n) =>
      match get l "indices" with
      | some a => do
        let s ← setOfAttr fuel v.indices a
        .ok ⟨some n, s⟩
      | none => .error .undefined
    | _ => .error .syntax
  | _ => .error .syntax

/-- BaseModelica/IR/Properties.cpp:92-95, `Variable::writeToMlirBytecode`; a null attribute cannot be written. -/
def writeVar (v : Var) : Out (List Item) :=
  match v.name with
  | some n => do
    let s ← writeSet v.indices
    .ok (.sym n :: s)
  | none => .error .undefined

/-- BaseModelica/IR/Properties.cpp:77-90, `Variable::readFromMlirBytecode`. -/
def readVar (fuel : Nat) (v : Var) : List Item → Out (Var × List Item)
  | .sym n :: ts => do
    let (s, ts) ← readSet fuel v.indices ts
    .ok (⟨some n, s⟩, ts)
  | _ => .error .syntax

/-! ### Directions -/

/-- `Schedule`, i.e. `Direction` (Modeling/Scheduling.h:96). -/
inductive Dir where
  | any | forward | backward | unknown
deriving DecidableEq, Repr

/-- BaseModelica/IR/Properties.cpp:366-378, `print(Schedule)`. -/
def printDir : Dir → List Tok
  | .any => [.kw "any"]
  | .forward => [.kw "forward"]
  | .backward => [.kw "backward"]
  | .unknown => [.kw "unknown"]

/-- BaseModelica/IR/Properties.cpp:342-364, `parse(Schedule)`. -/
def parseDir : List Tok → Out (Dir × List Tok)
  | .kw s :: ts =>
    if s = "any" then .ok (.any, ts)
    else if s = "forward" then .ok (.forward, ts)
    else if s = "backward" then .ok (.backward, ts)
    else if s = "unknown" then .ok (.unknown, ts)
    else .error .syntax
  | _ => .error .syntax

/-- BaseModelica/IR/Properties.cpp:278-298, `getPropertiesAsAttribute(Schedule)`. -/
def attrOfDir : Dir → Attr
  | .any => .str "any"
  | .forward => .str "forward"
  | .backward => .str "backward"
  | .unknown => .str "unknown"

/-- BaseModelica/IR/Properties.cpp:245-276, `setPropertiesFromAttribute(Schedule)`. -/
def dirOfAttr : Attr → Out Dir
  | .str s =>
    if s = "any" then .ok .any
    else if s = "forward" then .ok .forward
    else if s = "backward" then .ok .backward
    else if s = "unknown" then .ok .unknown
    else .error .undefined
  | _ => .error .syntax

/-- BaseModelica/IR/Properties.cpp:327-340, `writeToMlirBytecode(Schedule)`. -/
def writeDir : Dir → Out (List Item)
  | .unknown => .ok [.int 0]
  | .any => .ok [.int 1]
  | .forward => .ok [.int 2]
  | .backward => .ok [.int 3]

/-- BaseModelica/IR/Properties.cpp:304-325, `readFromMlirBytecode(Schedule)`. -/
def readDir : List Item → Out (Dir × List Item)
  | .int v :: ts =>
    if v = 0 then .ok (.unknown, ts)
    else if v = 1 then .ok (.any, ts)
    else if v = 2 then .ok (.forward, ts)
    else if v = 3 then .ok (.backward, ts)
    else .error .syntax
  | _ => .error .syntax

/-- BaseModelica/IR/Properties.cpp:446-468, `parse(ScheduleList)`. -/
def parseDirs : List Tok → Out (List Dir × List Tok) :=
  parseList (fun (_ : Unit) ts => do
    let (d, ts) ← parseDir ts
    .ok ((d, ()), ts)) ()

end Marco.Serial
