import Verif.Model.Statements
import Mathlib.Data.List.Range

/-!
# What statements do

The execution of the statements of Modelica (Modelica Language Specification, "Statements and Algorithm Sections"),
and the execution of the operations of the dialect (the descriptions in Ops.td), as relations: a program that does
not terminate is related to no final state.
-/

namespace Marco.Spec
open Marco.Stmts

/-- The values of the variables. -/
abbrev Store := String → Int

/-- The values of the iteration variables in scope. -/
abbrev Iters := String → Option Int

/-- How the execution of a statement ends. -/
inductive Ending where
  | next | brk | ret
  deriving DecidableEq

/-- The value of an expression: an iteration variable hides a variable. -/
def evalEx (ρ : Iters) (σ : Store) : Ex → Int
  | .const n => n
  | .var x => (ρ x).getD (σ x)
  | .op f a b => f (evalEx ρ σ a) (evalEx ρ σ b)

/-- The values of `a : s : b` if `s` is positive: `a`, `a + s`, … up to `b`. -/
def upTo (a s b : Int) : List Int :=
  (List.range ((b - a) / s + 1).toNat).map fun k : Nat => a + (k : Int) * s

/-- The elements of a range; there is none if the step is 0. -/
def rangeValues (a s b : Int) : List Int :=
  if 0 < s then upTo a s b
  else if s < 0 then (upTo (-a) (-s) (-b)).map fun x => -x
  else []

/-- The values an iteration variable takes: in `first : second : third` the step is in the middle. -/
def indexValues (ρ : Iters) (σ : Store) (i : Index) : List Int :=
  match i.third with
  | none => rangeValues (evalEx ρ σ i.first) 1 (evalEx ρ σ i.second)
  | some e => rangeValues (evalEx ρ σ i.first) (evalEx ρ σ i.second) (evalEx ρ σ e)

/-- Binds an iteration variable. -/
def bindIter (ρ : Iters) (x : String) (v : Int) : Iters := fun y => if y = x then some v else ρ y

/-- Sets a variable. -/
def assignTo (σ : Store) (x : String) (v : Int) : Store := fun y => if y = x then v else σ y

/-- Statements, nested loops with the same body, and the iterations that are left. -/
inductive Code where
  | src {k : Kind} (s : Src k)
  | loops (is : List Index) (body : Src .block)
  | iter (x : String) (vs : List Int) (is : List Index) (body : Src .block)

/-- `Exec ρ c σ o τ`: the execution of `c` in the state `σ` ends in the state `τ`, by reaching the end, a `break` or a
`return`. The range of a `for` is evaluated once; several indices are nested loops. -/
inductive Exec : Iters → Code → Store → Ending → Store → Prop where
  | nil {ρ σ} : Exec ρ (.src .nil) σ .next σ
  | cons {ρ s b σ σ' o τ} : Exec ρ (.src s) σ .next σ' → Exec ρ (.src b) σ' o τ →
      Exec ρ (.src (.cons s b)) σ o τ
  | stop {ρ s b σ o τ} : o ≠ .next → Exec ρ (.src s) σ o τ → Exec ρ (.src (.cons s b)) σ o τ
  | assign {ρ x e σ} : Exec ρ (.src (.assign x e)) σ .next (assignTo σ x (evalEx ρ σ e))
  | brk {ρ σ} : Exec ρ (.src .brk) σ .brk σ
  | ret {ρ σ} : Exec ρ (.src .ret) σ .ret σ
  | ifTrue {ρ c b r σ o τ} : evalEx ρ σ c ≠ 0 → Exec ρ (.src b) σ o τ →
      Exec ρ (.src (.ifs c b r)) σ o τ
  | ifFalse {ρ c b r σ o τ} : evalEx ρ σ c = 0 → Exec ρ (.src r) σ o τ →
      Exec ρ (.src (.ifs c b r)) σ o τ
  | noElse {ρ σ} : Exec ρ (.src .noElse) σ .next σ
  | els {ρ b σ o τ} : Exec ρ (.src b) σ o τ → Exec ρ (.src (.els b)) σ o τ
  | elseIfTrue {ρ c b r σ o τ} : evalEx ρ σ c ≠ 0 → Exec ρ (.src b) σ o τ →
      Exec ρ (.src (.elseIf c b r)) σ o τ
  | elseIfFalse {ρ c b r σ o τ} : evalEx ρ σ c = 0 → Exec ρ (.src r) σ o τ →
      Exec ρ (.src (.elseIf c b r)) σ o τ
  | whileEnd {ρ c b σ} : evalEx ρ σ c = 0 → Exec ρ (.src (.whiles c b)) σ .next σ
  | whileNext {ρ c b σ σ' o τ} : evalEx ρ σ c ≠ 0 → Exec ρ (.src b) σ .next σ' →
      Exec ρ (.src (.whiles c b)) σ' o τ → Exec ρ (.src (.whiles c b)) σ o τ
  | whileBrk {ρ c b σ τ} : evalEx ρ σ c ≠ 0 → Exec ρ (.src b) σ .brk τ →
      Exec ρ (.src (.whiles c b)) σ .next τ
  | whileRet {ρ c b σ τ} : evalEx ρ σ c ≠ 0 → Exec ρ (.src b) σ .ret τ →
      Exec ρ (.src (.whiles c b)) σ .ret τ
  | fors {ρ is b σ o τ} : Exec ρ (.loops is b) σ o τ → Exec ρ (.src (.fors is b)) σ o τ
  | innermost {ρ b σ o τ} : Exec ρ (.src b) σ o τ → Exec ρ (.loops [] b) σ o τ
  | loop {ρ} {i : Index} {is b σ o τ} : Exec ρ (.iter i.name (indexValues ρ σ i) is b) σ o τ →
      Exec ρ (.loops (i :: is) b) σ o τ
  | iterEnd {ρ x is b σ} : Exec ρ (.iter x [] is b) σ .next σ
  | iterNext {ρ x v vs is b σ σ' o τ} : Exec (bindIter ρ x v) (.loops is b) σ .next σ' →
      Exec ρ (.iter x vs is b) σ' o τ → Exec ρ (.iter x (v :: vs) is b) σ o τ
  | iterBrk {ρ x v vs is b σ τ} : Exec (bindIter ρ x v) (.loops is b) σ .brk τ →
      Exec ρ (.iter x (v :: vs) is b) σ .next τ
  | iterRet {ρ x v vs is b σ τ} : Exec (bindIter ρ x v) (.loops is b) σ .ret τ →
      Exec ρ (.iter x (v :: vs) is b) σ .ret τ

/-- The value of an SSA value. -/
def evalIr (ρ : Iters) (σ : Store) : IrEx → Int
  | .const n => n
  | .get x => σ x
  | .ind x => (ρ x).getD 0
  | .op f a b => f (evalIr ρ σ a) (evalIr ρ σ b)

/-- Operations, and a `ForOp` whose cell has a value. -/
inductive IrCode where
  | st (s : IrSt)
  | cell (x : String) (v : Int) (upper step : IrEx) (body : IrSt)

/-- `IrExec ρ c σ o τ`, as `Exec`. The condition region of a loop is evaluated before each iteration; the body reads
the cell once, at its beginning; then the step region is evaluated. -/
inductive IrExec : Iters → IrCode → Store → Ending → Store → Prop where
  | skip {ρ σ} : IrExec ρ (.st .skip) σ .next σ
  | noRegion {ρ σ} : IrExec ρ (.st .noRegion) σ .next σ
  | seq {ρ a b σ σ' o τ} : IrExec ρ (.st a) σ .next σ' → IrExec ρ (.st b) σ' o τ →
      IrExec ρ (.st (.seq a b)) σ o τ
  | stop {ρ a b σ o τ} : o ≠ .next → IrExec ρ (.st a) σ o τ → IrExec ρ (.st (.seq a b)) σ o τ
  | set {ρ x e σ} : IrExec ρ (.st (.set x e)) σ .next (assignTo σ x (evalIr ρ σ e))
  | breakOp {ρ σ} : IrExec ρ (.st .breakOp) σ .brk σ
  | returnOp {ρ σ} : IrExec ρ (.st .returnOp) σ .ret σ
  | ifTrue {ρ c a b σ o τ} : evalIr ρ σ c ≠ 0 → IrExec ρ (.st a) σ o τ →
      IrExec ρ (.st (.ifOp c a b)) σ o τ
  | ifFalse {ρ c a b σ o τ} : evalIr ρ σ c = 0 → IrExec ρ (.st b) σ o τ →
      IrExec ρ (.st (.ifOp c a b)) σ o τ
  | whileEnd {ρ c a σ} : evalIr ρ σ c = 0 → IrExec ρ (.st (.whileOp c a)) σ .next σ
  | whileNext {ρ c a σ σ' o τ} : evalIr ρ σ c ≠ 0 → IrExec ρ (.st a) σ .next σ' →
      IrExec ρ (.st (.whileOp c a)) σ' o τ → IrExec ρ (.st (.whileOp c a)) σ o τ
  | whileBrk {ρ c a σ τ} : evalIr ρ σ c ≠ 0 → IrExec ρ (.st a) σ .brk τ →
      IrExec ρ (.st (.whileOp c a)) σ .next τ
  | whileRet {ρ c a σ τ} : evalIr ρ σ c ≠ 0 → IrExec ρ (.st a) σ .ret τ →
      IrExec ρ (.st (.whileOp c a)) σ .ret τ
  | forOp {ρ x l u s a σ o τ} : IrExec ρ (.cell x (evalIr ρ σ l) u s a) σ o τ →
      IrExec ρ (.st (.forOp x l u s a)) σ o τ
  | fromEnd {ρ x v u s a σ} : ¬ v ≤ evalIr ρ σ u → IrExec ρ (.cell x v u s a) σ .next σ
  | fromNext {ρ x v u s a σ σ' o τ} : v ≤ evalIr ρ σ u → IrExec (bindIter ρ x v) (.st a) σ .next σ' →
      IrExec ρ (.cell x (v + evalIr ρ σ' s) u s a) σ' o τ → IrExec ρ (.cell x v u s a) σ o τ
  | fromBrk {ρ x v u s a σ τ} : v ≤ evalIr ρ σ u → IrExec (bindIter ρ x v) (.st a) σ .brk τ →
      IrExec ρ (.cell x v u s a) σ .next τ
  | fromRet {ρ x v u s a σ τ} : v ≤ evalIr ρ σ u → IrExec (bindIter ρ x v) (.st a) σ .ret τ →
      IrExec ρ (.cell x v u s a) σ .ret τ

/-- The names in an expression are in scope. -/
def exScoped (Γ : Scope) : Ex → Bool
  | .const _ => true
  | .var x => x ∈ Γ.inds || x ∈ Γ.vars
  | .op _ a b => exScoped Γ a && exScoped Γ b

/-- The indices and the body of nested loops are in scope: an index is visible in the ranges that follow. -/
def loopsScoped (body : Scope → Bool) (Γ : Scope) : List Index → Bool
  | [] => body Γ
  | i :: is => exScoped Γ i.first && exScoped Γ i.second && (i.third.all (exScoped Γ)) &&
      loopsScoped body { Γ with inds := i.name :: Γ.inds } is

/-- The names that are used are in scope, and only variables are assigned. -/
def inScope (Γ : Scope) : {k : Kind} → Src k → Bool
  | _, .assign x e => exScoped Γ e && (x ∈ Γ.vars) && !(x ∈ Γ.inds)
  | _, .ifs c b r => exScoped Γ c && inScope Γ b && inScope Γ r
  | _, .fors is b => loopsScoped (fun Δ => inScope Δ b) Γ is
  | _, .whiles c b => exScoped Γ c && inScope Γ b
  | _, .brk => true
  | _, .ret => true
  | _, .nil => true
  | _, .cons s b => inScope Γ s && inScope Γ b
  | _, .noElse => true
  | _, .els b => inScope Γ b
  | _, .elseIf c b r => exScoped Γ c && inScope Γ b && inScope Γ r

/-- The variables that an expression reads. -/
def reads : Ex → List String
  | .const _ => []
  | .var x => [x]
  | .op _ a b => reads a ++ reads b

/-- The variables that are assigned. -/
def writes : {k : Kind} → Src k → List String
  | _, .assign x _ => [x]
  | _, .ifs _ b r => writes b ++ writes r
  | _, .fors _ b => writes b
  | _, .whiles _ b => writes b
  | _, .brk => []
  | _, .ret => []
  | _, .nil => []
  | _, .cons s b => writes s ++ writes b
  | _, .noElse => []
  | _, .els b => writes b
  | _, .elseIf _ b r => writes b ++ writes r

/-- Every `for` has one index, no step, and a limit that its body does not change. -/
def simpleLoops : {k : Kind} → Src k → Bool
  | _, .assign _ _ => true
  | _, .ifs _ b r => simpleLoops b && simpleLoops r
  | _, .fors [i] b => i.third.isNone && (reads i.second).all (fun x => !(x ∈ writes b)) && simpleLoops b
  | _, .fors _ _ => false
  | _, .whiles _ b => simpleLoops b
  | _, .brk => true
  | _, .ret => true
  | _, .nil => true
  | _, .cons s b => simpleLoops s && simpleLoops b
  | _, .noElse => true
  | _, .els b => simpleLoops b
  | _, .elseIf _ b r => simpleLoops b && simpleLoops r

/-- There is no `for`. -/
def noLoops : {k : Kind} → Src k → Bool
  | _, .assign _ _ => true
  | _, .ifs _ b r => noLoops b && noLoops r
  | _, .fors _ _ => false
  | _, .whiles _ b => noLoops b
  | _, .brk => true
  | _, .ret => true
  | _, .nil => true
  | _, .cons s b => noLoops s && noLoops b
  | _, .noElse => true
  | _, .els b => noLoops b
  | _, .elseIf _ b r => noLoops b && noLoops r

end Marco.Spec
