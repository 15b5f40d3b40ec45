import Verif.Model.EquationAccesses
import Verif.Spec.Access

/-!
# Specification of the accesses of an equation: the elements read
-/

namespace Marco.Spec.EqAcc
open Marco Marco.EqAcc

/-- The values of the induction variables. -/
abbrev IndEnv := Nat → Option Int

/-- A subscript is a number, or a range with its first element, its step and its number of elements. -/
inductive Val where
  | int (v : Int)
  | rng (first step : Int) (n : Nat)

/-- Arithmetic on subscripts; ranges are shifted and scaled, element by element. A quotient is a subscript if it is an
integer. -/
def binVal : BinOp → Val → Val → Option Val
  | .add, .int x, .int y => some (.int (x + y))
  | .add, .int x, .rng f s n => some (.rng (x + f) s n)
  | .add, .rng f s n, .int y => some (.rng (f + y) s n)
  | .sub, .int x, .int y => some (.int (x - y))
  | .sub, .int x, .rng f s n => some (.rng (x - f) (-s) n)
  | .sub, .rng f s n, .int y => some (.rng (f - y) s n)
  | .mul, .int x, .int y => some (.int (x * y))
  | .mul, .int x, .rng f s n => some (.rng (x * f) (x * s) n)
  | .mul, .rng f s n, .int y => some (.rng (f * y) (s * y) n)
  | .div, .int x, .int y => if y ≠ 0 ∧ y ∣ x then some (.int (x / y)) else none
  | _, _, _ => none

/-- The value of a subscript. The end of a range belongs to it, if reached. -/
def value (env : IndEnv) : Exp → Option Val
  | .cst v => some (.int v)
  | .rng lo hi step => if 0 < step ∧ lo ≤ hi then some (.rng lo step ((hi - lo) / step + 1).toNat) else none
  | .rrng lo hi step => if 0 < step ∧ lo ≤ hi then some (.rng lo step ((hi - lo) / step + 1).toNat) else none
  | .neg a => (value env a).map fun
    | .int v => .int (-v)
    | .rng f s n => .rng (-f) (-s) n
  | .bin o a b => (value env a).bind fun x => (value env b).bind fun y => binVal o x y
  | .arg id => (env id).map .int
  | _ => none

/-- The element at `sel` of a subscripted value is the element at `pos` of the value: numbers replace a coordinate, ranges
offset it, the dimensions without subscript are kept. -/
inductive Locates (env : IndEnv) : List Exp → Point → Point → Prop
  | nil (sel : Point) : Locates env [] sel sel
  | int {e : Exp} {es : List Exp} {v : Int} {sel pos : Point} : value env e = some (.int v) → Locates env es sel pos →
      Locates env (e :: es) sel (v :: pos)
  | rng {e : Exp} {es : List Exp} {f s : Int} {n i : Nat} {sel pos : Point} : value env e = some (.rng f s n) → i < n →
      Locates env es sel pos → Locates env (e :: es) ((i : Int) :: sel) ((f + i * s) :: pos)

/-- The point is within the shape. -/
def InShape (shape : List Nat) (x : Point) : Prop := List.Forall₂ (fun (d : Nat) (i : Int) => 0 ≤ i ∧ i < (d : Int)) shape x

/-- The element is one of those of the iterable. -/
def Iterates (env : IndEnv) (it : Exp) (w : Int) : Prop :=
  ∃ f s n, value env it = some (.rng f s n) ∧ ∃ i : Nat, i < n ∧ w = f + i * s

/-- The environment within a reduction. -/
def extend (env : IndEnv) : List Nat → List Int → IndEnv
  | i :: is, w :: ws => fun k => if k = i then some w else extend env is ws k
  | _, _ => env

/-- Computing the element at `sel` of the value of the expression reads the element `x` of the variable `v`. An operation
other than a subscription may read everything of its operands; subscripts and iterables are read too. -/
inductive Reads : IndEnv → Exp → Point → Nat → Point → Prop
  | get {env : IndEnv} {v : Nat} {shape : List Nat} {x : Point} : InShape shape x → Reads env (.get v shape) x v x
  | neg {env : IndEnv} {a : Exp} {sel sel' : Point} {v : Nat} {x : Point} : Reads env a sel' v x → Reads env (.neg a) sel v x
  | lhs {env : IndEnv} {o : BinOp} {a b : Exp} {sel sel' : Point} {v : Nat} {x : Point} : Reads env a sel' v x →
      Reads env (.bin o a b) sel v x
  | rhs {env : IndEnv} {o : BinOp} {a b : Exp} {sel sel' : Point} {v : Nat} {x : Point} : Reads env b sel' v x →
      Reads env (.bin o a b) sel v x
  | op {env : IndEnv} {args : List Exp} {a : Exp} {sel sel' : Point} {v : Nat} {x : Point} : a ∈ args →
      Reads env a sel' v x → Reads env (.op args) sel v x
  | sub {env : IndEnv} {src : Exp} {idx : List Exp} {sel sel' : Point} {v : Nat} {x : Point} :
      Locates env idx sel sel' → Reads env src sel' v x → Reads env (.sub src idx) sel v x
  | subscript {env : IndEnv} {src : Exp} {idx : List Exp} {e : Exp} {sel sel' : Point} {v : Nat} {x : Point} : e ∈ idx →
      Reads env e sel' v x → Reads env (.sub src idx) sel v x
  | cast {env : IndEnv} {src : Exp} {sel : Point} {v : Nat} {x : Point} : Reads env src sel v x →
      Reads env (.cast src) sel v x
  | iterable {env : IndEnv} {is : List Nat} {its body : List Exp} {e : Exp} {sel sel' : Point} {v : Nat} {x : Point} :
      e ∈ its → Reads env e sel' v x → Reads env (.red is its body) sel v x
  | red {env : IndEnv} {is : List Nat} {its body : List Exp} {ws : List Int} {e : Exp} {sel sel' : Point} {v : Nat}
      {x : Point} : List.Forall₂ (Iterates env) its ws → e ∈ body → Reads (extend env is ws) e sel' v x →
      Reads env (.red is its body) sel v x

/-- The explicit inductions at an iteration of the equation. -/
def atPoint (inds : List Nat) (p : Point) : IndEnv := fun id => if id ∈ inds then p[inds.idxOf id]? else none

/-- The equation reads the element at the iteration `p`. -/
def ReadsAt (t : Template) (p : Point) (v : Nat) (x : Point) : Prop :=
  ∃ sel, Reads (atPoint t.inds p) t.lhs sel v x ∨ Reads (atPoint t.inds p) t.rhs sel v x

/-- The access reaches the element from the iteration. The element of a scalar variable is reached by every access to it. -/
def Reaches (a : Access) (p : Point) (v : Nat) (x : Point) : Prop :=
  a.var = v ∧ (x ≠ [] → ∃ s, a.fn.mapPoint p = some s ∧ Has s x)

/-- A subscript without ranges and quotients. -/
def Plain : Exp → Prop
  | .cst _ => True
  | .arg _ => True
  | .neg a => Plain a
  | .bin o a b => o ≠ .div ∧ Plain a ∧ Plain b
  | _ => False

mutual
/-- Every subscript is plain; the reductions have one iterable, a constant range of integers with step one. The inductions of the
reductions are not those of the equation. -/
def Simple (inds : List Nat) : Exp → Prop
  | .arg _ => True
  | .cst _ => True
  | .rng .. => True
  | .rrng .. => True
  | .get .. => True
  | .gget => True
  | .neg a => Simple inds a
  | .bin _ a b => Simple inds a ∧ Simple inds b
  | .op args => SimpleL inds args
  | .sub src idx => Simple inds src ∧ ∀ e ∈ idx, Plain e
  | .cast src => Simple inds src
  | .red is its body => (∃ i lo hi, is = [i] ∧ its = [.rng lo hi 1] ∧ i ∉ inds) ∧ SimpleL inds body
/-- All of the expressions. -/
def SimpleL (inds : List Nat) : List Exp → Prop
  | [] => True
  | e :: es => Simple inds e ∧ SimpleL inds es
end

mutual
/-- No reductions. -/
def NoRed : Exp → Prop
  | .neg a => NoRed a
  | .bin _ a b => NoRed a ∧ NoRed b
  | .op args => NoRedL args
  | .sub src _ => NoRed src
  | .cast src => NoRed src
  | .red .. => False
  | _ => True
/-- None in any of the expressions. -/
def NoRedL : List Exp → Prop
  | [] => True
  | e :: es => NoRed e ∧ NoRedL es
end

mutual
/-- The variables have the given shapes. -/
def Typed (shapes : Nat → List Nat) : Exp → Prop
  | .get v shape => shape = shapes v
  | .neg a => Typed shapes a
  | .bin _ a b => Typed shapes a ∧ Typed shapes b
  | .op args => TypedL shapes args
  | .sub src _ => Typed shapes src
  | .cast src => Typed shapes src
  | .red _ _ body => TypedL shapes body
  | _ => True
/-- In all of the expressions. -/
def TypedL (shapes : Nat → List Nat) : List Exp → Prop
  | [] => True
  | e :: es => Typed shapes e ∧ TypedL shapes es
end

/-- Subscriptions of a variable. -/
def Chain : Exp → Prop
  | .get .. => True
  | .sub src _ => Chain src
  | _ => False

/-- The variable that is subscripted. -/
def root : Exp → Option Nat
  | .get v _ => some v
  | .sub src _ => root src
  | _ => none

mutual
/-- No reductions, and only variables are subscripted. -/
def Chained : Exp → Prop
  | .neg a => Chained a
  | .bin _ a b => Chained a ∧ Chained b
  | .op args => ChainedL args
  | .sub src _ => Chain src
  | .cast src => Chained src
  | .red .. => False
  | _ => True
/-- In all of the expressions. -/
def ChainedL : List Exp → Prop
  | [] => True
  | e :: es => Chained e ∧ ChainedL es
end

end Marco.Spec.EqAcc
