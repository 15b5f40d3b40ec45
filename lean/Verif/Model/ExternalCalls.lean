import Verif.Model.ArrayMemory

/-! # The calls of external functions

Model of the conversion of the calls of functions written in C (`ExternalCallOpCLowering` in `BaseModelicaToFunc.cpp`): the types
of the arguments become those of C, an array is passed as a pointer to its elements followed by its sizes, and what the function
has written is copied back.

The external function is any function from what it receives to the new contents of the memory behind each pointer. Each pointer
has its own memory: the function does not receive the same buffer twice. The values of type `f64` are opaque, here integers;
`i1` has the values 0 and 1, `i64` and `index` are signed. -/

namespace Marco.ExtCall
open Marco.ArrMem

/-- The types of the values and of the elements of the arrays at this stage. -/
inductive Ty where
  | i1
  | i64
  | f64
  | index
deriving DecidableEq

/-- The options of the pass, set at `/repo/lib/Frontend/FrontendActions.cpp:1262-1272`: the width of `int` for Boolean and Integer
and that of a pointer for the indices. -/
structure Widths where
  boolean : Nat
  integer : Nat
  index : Nat
deriving DecidableEq

/-- `/repo/lib/Codegen/Conversion/BaseModelicaToFunc/BaseModelicaToFunc.cpp:532-569` (`convertType`): whether the type of C is the
same type. An `index` becomes an integer type, which is always another type. -/
def sameTy (w : Widths) : Ty → Bool
  | .i1 => w.boolean == 1
  | .i64 => w.integer == 64
  | .f64 => true
  | .index => false

/-- A `CastOp` to the type of C (`/repo/lib/Codegen/Conversion/BaseModelicaToFunc/BaseModelicaToFunc.cpp:496-502,618-619`), which
becomes an extension or a truncation (`/repo/lib/Codegen/Conversion/BaseModelicaToArith/BaseModelicaToArith.cpp:101-130`): a
Boolean is extended with zeros, the others with the sign. -/
def toC (w : Widths) : Ty → Int → Int
  | .i1, v => v
  | .i64, v => if w.integer < 64 then Int.bmod v (2 ^ w.integer) else v
  | .f64, v => v
  | .index, v => if w.index < 64 then Int.bmod v (2 ^ w.index) else v

/-- A `CastOp` from the type of C (`/repo/lib/Codegen/Conversion/BaseModelicaToFunc/BaseModelicaToFunc.cpp:512-526,636-637`): a
truncation to one bit for the Booleans. -/
def fromC (w : Widths) : Ty → Int → Int
  | .i1, v => v % 2
  | .i64, v => if 64 < w.integer then Int.bmod v (2 ^ 64) else v
  | .f64, v => v
  | .index, v => if 64 < w.index then Int.bmod v (2 ^ 64) else v

/-- An argument of an `ExternalCallOp`: a scalar, or a `memref` in a buffer. -/
inductive Arg where
  | scalar (t : Ty) (v : Int)
  | array (t : Ty) (buf : Nat) (m : MemRef)
deriving DecidableEq

/-- What the external function receives: a value, or a pointer with the contents of the memory from there on. -/
inductive CArg where
  | val (v : Int)
  | ptr (contents : Int → Int)

/-- The sizes of a `memref` at run time. -/
def sizes (m : MemRef) : List Nat := m.dims.map fun d => d.1.toNat

/-- The dimensions of a new `memref` of given sizes (semantics of `memref.alloc`): the elements by rows, without gaps. -/
def rowDims : List Nat → List (Int × Int)
  | [] => []
  | n :: ns => ((n : Int), ((ns.foldr (· * ·) 1 : Nat) : Int)) :: rowDims ns

def rows (ns : List Nat) : MemRef := ⟨0, rowDims ns⟩

/-- `/repo/lib/Codegen/Conversion/BaseModelicaToFunc/BaseModelicaToFunc.cpp:582-641`: a loop nest over the sizes of the array (594-603),
which copies and casts each element. -/
def copyLoop (cast : Int → Int) (ns : List Nat) (src dst : MemRef) (smem dmem : Int → Int) : Int → Int :=
  loopNest (fun pos mem => store dst pos (cast (smem (src.addr pos))) mem) ns [] dmem

/-- `/repo/lib/Codegen/Conversion/BaseModelicaToFunc/BaseModelicaToFunc.cpp:463-480,578-623`: the memory behind the pointer that is
passed for an array. With the same type it is the buffer of the array from its beginning: `ExtractAlignedPointerAsIndexOp` does
not add the offset. Otherwise it is a new `memref`, whose cells hold `garbage` before the copy. -/
def pointer (w : Widths) (garbage mem : Int → Int) (t : Ty) (m : MemRef) : Int → Int :=
  if sameTy w t then mem else copyLoop (toC w t) (sizes m) m (rows (sizes m)) mem garbage

/-- `/repo/lib/Codegen/Conversion/BaseModelicaToFunc/BaseModelicaToFunc.cpp:460-503`: what is passed for an argument; the sizes
follow the pointer (482-491). -/
def pass (w : Widths) (garbage : Int → Int) (mem : Nat → Int → Int) : Arg → List CArg
  | .scalar t v => [.val (if sameTy w t then v else toC w t v)]
  | .array t b m => .ptr (pointer w garbage (mem b) t m) :: (sizes m).map fun (n : Nat) => .val (toC w .index (n : Int))

/-- `/repo/lib/Codegen/Conversion/BaseModelicaToFunc/BaseModelicaToFunc.cpp:625-641`: the buffer of an array after the call, from the
`new` contents behind its pointer. -/
def back (w : Widths) (t : Ty) (m : MemRef) (new mem : Int → Int) : Int → Int :=
  if sameTy w t then new else copyLoop (fromC w t) (sizes m) (rows (sizes m)) m new mem

/-- The memory after the call: `new k` has the contents behind the pointer of argument `k`. Each copy is put right after the
operation (626-627), before those of the arguments before it. -/
def backAll (w : Widths) (new : Nat → Int → Int) : Nat → List Arg → (Nat → Int → Int) → Nat → Int → Int
  | _, [], mem => mem
  | k, .scalar _ _ :: args, mem => backAll w new (k + 1) args mem
  | k, .array t b m :: args, mem =>
    let mem' := backAll w new (k + 1) args mem
    fun c => if c = b then back w t m (new k) (mem' b) else mem' c

/-- `/repo/lib/Codegen/Conversion/BaseModelicaToFunc/BaseModelicaToFunc.cpp:447-530` (`matchAndRewrite`): the memory and the result
after the call of the external function `F`, whose result has the type `t`. -/
def call (w : Widths) (garbage : Int → Int) (F : List CArg → (Nat → Int → Int) × Int) (t : Ty) (args : List Arg)
    (mem : Nat → Int → Int) : (Nat → Int → Int) × Int :=
  let r := F (args.flatMap (pass w garbage mem))
  (backAll w r.1 0 args mem, if sameTy w t then r.2 else fromC w t r.2)

/-! ### The language and the declaration -/

/-- `/repo/lib/Codegen/Conversion/BaseModelicaToFunc/BaseModelicaToFunc.cpp:339-340` and
`/repo/lib/Dialect/BaseModelica/Transforms/BufferizableOpInterfaceImpl.cpp:239-241`: the operation is made anew without its
attribute `language`, whose default value is `"C"` (`/repo/include/marco/Dialect/BaseModelica/IR/Ops.td:4919`). -/
def remake (_language : String) : String := "C"

/-- `/repo/lib/Codegen/Conversion/BaseModelicaToFunc/BaseModelicaToFunc.cpp:450-452` and `714`: whether the call is converted; otherwise
the pass fails. -/
def accepted (language : String) : Bool := remake language == "C"

/-- `/repo/lib/Codegen/Conversion/BaseModelicaToFunc/BaseModelicaToFunc.cpp:655-677` (`getOrDeclareExternalFunction`): the types of the
function that is called, and the declarations afterwards. -/
def declare (decls : List (String × List Ty)) (name : String) (types : List Ty) : List Ty × List (String × List Ty) :=
  match decls.lookup name with
  | some ts => (ts, decls)
  | none => (types, (name, types) :: decls)

end Marco.ExtCall
