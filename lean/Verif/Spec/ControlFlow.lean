import Verif.Model.ControlFlow
import Verif.Spec.Execution
import Mathlib.Logic.Relation

/-!
# What a control flow graph does
-/

namespace Marco.Spec
open Marco.Stmts Marco.Cfg

/-- The memory of a running function: its variables, and the cell and the SSA value of each loop. -/
structure Mem where
  vars : Store
  cell : Label → Int
  val : Label → Int

/-- The value of an SSA value. -/
def Mem.eval (m : Mem) (env : Env) (e : IrEx) : Int := evalIr (fun x => (env x).map m.val) m.vars e

/-- Sets a cell. -/
def Mem.setCell (m : Mem) (l : Label) (v : Int) : Mem := { m with cell := fun i => if i = l then v else m.cell i }

/-- One block is executed. There is no rule for an operation that is not converted. -/
inductive BlockStep (code : List (Label × Node)) : Label × Mem → Label × Mem → Prop where
  | set {l env x e k m} : (l, Node.set env x e k) ∈ code →
      BlockStep code (l, m) (k, { m with vars := assignTo m.vars x (m.eval env e) })
  | initCell {l env c e k m} : (l, Node.initCell env c e k) ∈ code →
      BlockStep code (l, m) (k, m.setCell c (m.eval env e))
  | testYes {l env c e y n m} : (l, Node.testCell env c e y n) ∈ code → m.cell c ≤ m.eval env e →
      BlockStep code (l, m) (y, m)
  | testNo {l env c e y n m} : (l, Node.testCell env c e y n) ∈ code → ¬ m.cell c ≤ m.eval env e →
      BlockStep code (l, m) (n, m)
  | readCell {l c k m} : (l, Node.readCell c k) ∈ code →
      BlockStep code (l, m) (k, { m with val := fun i => if i = c then m.cell c else m.val i })
  | addCell {l env c e k m} : (l, Node.addCell env c e k) ∈ code →
      BlockStep code (l, m) (k, m.setCell c (m.cell c + m.eval env e))
  | yes {l env c y n m} : (l, Node.test env c y n) ∈ code → m.eval env c ≠ 0 → BlockStep code (l, m) (y, m)
  | no {l env c y n m} : (l, Node.test env c y n) ∈ code → m.eval env c = 0 → BlockStep code (l, m) (n, m)
  | goto {l k m} : (l, Node.goto k) ∈ code → BlockStep code (l, m) (k, m)

/-- The blocks, started at `entry` with the memory `m`, reach the exit block with the variables `τ`. -/
def Returns (code : List (Label × Node)) (entry : Label) (m : Mem) (τ : Store) : Prop :=
  ∃ m' : Mem, m'.vars = τ ∧ Relation.ReflTransGen (BlockStep code) (entry, m) (exitBlock, m')

/-- Every operation has been converted. -/
def converted (code : List (Label × Node)) : Prop := ∀ l s, (l, Node.raw s) ∉ code

/-- The algorithms of a function, one after the other. -/
def oneAfterOther : List IrSt → IrSt
  | [] => .skip
  | a :: as => .seq a (oneAfterOther as)

/-- Every `break` is inside a loop. -/
def breaksInLoops (inLoop : Bool) : IrSt → Bool
  | .skip | .noRegion | .set _ _ | .returnOp => true
  | .seq a b => breaksInLoops inLoop a && breaksInLoops inLoop b
  | .ifOp _ a b => breaksInLoops inLoop a && breaksInLoops inLoop b
  | .forOp _ _ _ _ a => breaksInLoops true a
  | .whileOp _ a => breaksInLoops true a
  | .breakOp => inLoop

/-- There is no structured operation. -/
def straight : IrSt → Bool
  | .skip | .noRegion | .set _ _ => true
  | .seq a b => straight a && straight b
  | _ => false

/-- The `then` region of an `IfOp` with an `else` region contains no structured operation. -/
def straightThen : IrSt → Bool
  | .skip | .noRegion | .set _ _ | .returnOp | .breakOp => true
  | .seq a b => straightThen a && straightThen b
  | .ifOp _ a .noRegion => straightThen a
  | .ifOp _ a b => straight a && straightThen b
  | .forOp _ _ _ _ a => straightThen a
  | .whileOp _ a => straightThen a

end Marco.Spec
