import Verif.Model.CycleSolving
import Verif.Spec.Substitution

/-!
# Specification of the solution of cycles by substitution

The meaning of the equations: a set of equations stands for the assignments of values to the elements
of the variables with which both sides of every equation have the same value at every iteration.
-/

namespace Marco.Spec
open Marco Subst

/-- The meaning of the operations, in some domain of values; operations may be undefined. -/
structure Domain (α : Type) where
  index : Int → α
  op : Nat → α → α → Option α

/-- The value of an expression at the iteration `p`, where the elements of the variables have the
values `ρ`. -/
def exprValue {α : Type} (D : Domain α) (ρ : Nat → Point → α) (p : Point) : Expr → Option α
  | .var v subs => (subs.mapM fun a : DimAccess => a.affineExpr.bind fun e => e.eval p).map (ρ v)
  | .ind e => (e.eval p).map D.index
  | .cst c => some (D.index c)
  | .op f a b => do
    let x ← exprValue D ρ p a
    let y ← exprValue D ρ p b
    D.op f x y

/-- Both sides have the same value at the iteration. -/
def HoldsAt {α : Type} (D : Domain α) (ρ : Nat → Point → α) (t : Template) (p : Point) : Prop :=
  ∃ x, exprValue D ρ p t.lhs = some x ∧ exprValue D ρ p t.rhs = some x

/-- The iterations of an equation; one without induction variables has one. -/
def iterations (op : Inst) : Finset Point := if op.tmpl.inds = 0 then {[]} else op.indices

/-- The equation holds at all its iterations. -/
def Holds {α : Type} (D : Domain α) (ρ : Nat → Point → α) (op : Inst) : Prop :=
  ∀ p ∈ iterations op, HoldsAt D ρ op.tmpl p

/-- The assignment solves the equations. -/
def SolvesAll {α : Type} (D : Domain α) (ρ : Nat → Point → α) (l : List Inst) : Prop :=
  ∀ op ∈ l, Holds D ρ op

/-- The subscripts and indices are affine expressions, without divisions, of `n` induction
variables. -/
def InScope (n : Nat) : Expr → Prop
  | .var _ subs => PlainAccess n subs
  | .ind e => e.NoDiv ∧ e.Below n
  | .cst _ => True
  | .op _ a b => InScope n a ∧ InScope n b

/-- The stored ranges of a set are non-empty, and their union is the set. -/
structure StoredRanges (rep : Finset Point → List (Finset Point)) : Prop where
  nonempty : ∀ s, ∀ r ∈ rep s, r ≠ ∅
  union : ∀ s p, p ∈ s ↔ ∃ r ∈ rep s, p ∈ r

/-- The explicit form of an equation, if there is one: on the left the matched access, on the right
an expression in the same induction variables, and it holds where the equation does. -/
structure ExplicitOk {α : Type} (D : Domain α) (explicitate : Inst → Option Template) : Prop where
  inds : ∀ w x, explicitate w = some x → x.inds = w.tmpl.inds
  lhs : ∀ w x, explicitate w = some x → x.lhs = .var w.writes w.written
  rhs : ∀ w x, explicitate w = some x → InScope x.inds x.rhs
  holds : ∀ w x ρ p, explicitate w = some x → HoldsAt D ρ w.tmpl p → HoldsAt D ρ x p

/-- An equation of the SCC: its indices have one coordinate for each induction variable, and there
are no indices exactly if there are no induction variables. -/
structure WellFormed (op : Inst) : Prop where
  rank : ∀ p ∈ op.indices, p.length = op.tmpl.inds
  empty : op.tmpl.inds = 0 ↔ op.indices = ∅
  written : PlainAccess op.tmpl.inds op.written

/-- A part of an equation within a cycle: some of its indices. The only index given for an equation
without induction variables is `(0)`. -/
structure PartOk (c : CyclicEq) : Prop where
  eq : WellFormed c.eq
  nonempty : c.indices ≠ ∅
  sub : c.eq.tmpl.inds ≠ 0 → c.indices ⊆ c.eq.indices
  scalar : c.eq.tmpl.inds = 0 → c.indices = {[0]}

/-- Every equation of the cycle reads, at the path, the variable written by the next one, and every
element written by the part of the next one is read. -/
def Linked : List CyclicEq → Prop
  | c :: d :: cs =>
    (∃ subs, c.eq.tmpl.at c.read = some (.var d.eq.writes subs) ∧ PlainAccess c.eq.tmpl.inds subs ∧
      ∀ q ∈ d.indices, ∃ p ∈ c.indices, ∃ r, Reaches subs p r ∧ Reaches d.eq.written q r) ∧
    Linked (d :: cs)
  | _ => True

/-- A cycle among the given equations, whose first equation is not found in it again. -/
structure CycleGiven (eqs : List Inst) (cycle : List CyclicEq) : Prop where
  parts : ∀ c ∈ cycle, PartOk c ∧ c.eq ∈ eqs
  linked : Linked cycle
  first : ∀ c cs, cycle = c :: cs → ∀ d ∈ cs, d.eq.id ≠ c.eq.id

end Marco.Spec
