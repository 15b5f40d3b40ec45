import Verif.Model.Statements

/-!
# Model of the conversion of algorithms to control flow graphs
(`/repo/lib/Codegen/Conversion/BaseModelicaToCF/BaseModelicaToCF.cpp`)

The structured operations of a function become blocks that branch to each other. The code splits and links blocks in
place; the model builds the blocks from the last one to the first one, with one operation in each block, which runs
through the same operations. The blocks that cannot be reached, which the code erases at the end (252-253), are kept. The
variables of the function are those of `Verif/Model/Statements.lean`; the creation of the variables (196-211, 258-299) and the
replacement of symbols with SSA values (301-385) are left out.
-/

namespace Marco.Cfg
open Marco.Stmts

/-- The name of a block. -/
scoped notation "Label" => Nat

/-- The iteration variables in scope: the loop of each one, named by its first block. -/
abbrev Env := String → Option Label

/-- A block. The values that an operation uses are those of the loops in `env`. -/
inductive Node where
  /-- `VariableSetOp`, then a branch -/
  | set (env : Env) (x : String) (e : IrEx) (next : Label)
  /-- the cell of a loop gets its first value -/
  | initCell (env : Env) (loop : Label) (e : IrEx) (next : Label)
  /-- the condition region of a `ForOp`, then a conditional branch -/
  | testCell (env : Env) (loop : Label) (limit : IrEx) (yes no : Label)
  /-- the body of a loop reads the cell -/
  | readCell (loop : Label) (next : Label)
  /-- the step region of a `ForOp`, then a branch -/
  | addCell (env : Env) (loop : Label) (e : IrEx) (next : Label)
  /-- `cf::CondBranchOp` -/
  | test (env : Env) (c : IrEx) (yes no : Label)
  /-- `cf::BranchOp` -/
  | goto (next : Label)
  /-- an operation that has not been converted -/
  | raw (s : IrSt)

/-- The result of a conversion: the first block, the blocks, and the first name that is not used. -/
structure Out where
  entry : Label
  code : List (Label × Node)
  fresh : Label

/-- `/repo/lib/Codegen/Conversion/BaseModelicaToCF/BaseModelicaToCF.cpp:567-592`: the `then` region of an `IfOp` with
an `else` region. The region is inlined (537) and its end branches to the continuation (579-580), but `recurse`
is called on the `else` region only (588-591): the structured operations stay as they are. -/
def keep (env : Env) (next : Label) : IrSt → Label → Out
  | .skip, n => ⟨next, [], n⟩
  | .noRegion, n => ⟨next, [], n⟩
  | .seq a b, n =>
    let ob := keep env next b n
    let oa := keep env ob.entry a ob.fresh
    ⟨oa.entry, oa.code ++ ob.code, oa.fresh⟩
  | .set x e, n => ⟨n, [(n, .set env x e next)], n + 1⟩
  | s, n => ⟨n, [(n, .raw s)], n + 1⟩

/-- `/repo/lib/Codegen/Conversion/BaseModelicaToCF/BaseModelicaToCF.cpp:387-411` (`createCFG` of an operation) and
676-696 (`recurse`): the blocks of `s`, which continue at `next`. `exit` is `loopExitBlock`, which is null outside of
loops, and `ret` is `functionReturnBlock`, which is never null. `BreakOp`: 413-430. `ForOp`: 432-517. `IfOp`: 519-595,
without an `else` region 547-566. `WhileOp`: 597-653. `ReturnOp`: 655-674. -/
def conv (ret : Label) (env : Env) (exit : Option Label) (next : Label) : IrSt → Label → Option Out
  | .skip, n => some ⟨next, [], n⟩
  | .noRegion, n => some ⟨next, [], n⟩
  | .seq a b, n => do
    let ob ← conv ret env exit next b n
    let oa ← conv ret env exit ob.entry a ob.fresh
    pure ⟨oa.entry, oa.code ++ ob.code, oa.fresh⟩
  | .set x e, n => some ⟨n, [(n, .set env x e next)], n + 1⟩
  | .ifOp c a .noRegion, n => do
    let oa ← conv ret env exit next a (n + 1)
    pure ⟨n, (n, .test env c oa.entry next) :: oa.code, oa.fresh⟩
  | .ifOp c a b, n => do
    let oa := keep env next a (n + 1)
    let ob ← conv ret env exit next b oa.fresh
    pure ⟨n, (n, .test env c oa.entry ob.entry) :: (oa.code ++ ob.code), ob.fresh⟩
  | .forOp x lower upper step body, n => do
    let o ← conv ret (fun y => if y = x then some n else env y) (some next) (n + 3) body (n + 4)
    pure ⟨n, (n, .initCell env n lower (n + 1)) :: (n + 1, .testCell env n upper (n + 2) next) ::
      (n + 2, .readCell n o.entry) :: (n + 3, .addCell env n step (n + 1)) :: o.code, o.fresh⟩
  | .whileOp c body, n => do
    let o ← conv ret env (some next) n body (n + 1)
    pure ⟨n, (n, .test env c o.entry next) :: o.code, o.fresh⟩
  | .breakOp, n => do
    let l ← exit
    pure ⟨n, [(n, .goto l)], n + 1⟩
  | .returnOp, n => some ⟨n, [(n, .goto ret)], n + 1⟩

/-- The label of the exit block. -/
def exitBlock : Label := 0

/-- `/repo/lib/Codegen/Conversion/BaseModelicaToCF/BaseModelicaToCF.cpp:213-233`: the algorithms of a function, each
one followed by the next one, and the last one by the exit block. -/
def convAlgorithms : List IrSt → Option Out
  | [] => some ⟨exitBlock, [], exitBlock + 1⟩
  | a :: as => do
    let r ← convAlgorithms as
    let o ← conv exitBlock (fun _ => none) none r.entry a r.fresh
    pure ⟨o.entry, o.code ++ r.code, o.fresh⟩

end Marco.Cfg
