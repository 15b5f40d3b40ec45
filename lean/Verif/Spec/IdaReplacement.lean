import Mathlib.Algebra.BigOperators.Group.Multiset.Basic
import Mathlib.Algebra.Order.Group.Multiset
import Verif.Model.IdaReplacement
import Verif.Spec.CycleSolving

/-!
# Specification of the replacement of the variables that IDA does not handle
-/

namespace Marco.Spec.IdaRep
open Marco Marco.Subst Marco.Spec

/-- The expression reads the variable with the subscripts. -/
def ReadsIn (v : Nat) (subs : List DimAccess) : Expr → Prop
  | .var w s => w = v ∧ s = subs
  | .ind _ => False
  | .cst _ => False
  | .op _ a b => ReadsIn v subs a ∨ ReadsIn v subs b

/-- The equation has an access to the variable with the subscripts. -/
def Has (v : Nat) (subs : List DimAccess) (t : Template) : Prop := ReadsIn v subs t.lhs ∨ ReadsIn v subs t.rhs

/-- The equation writes the element of the variable at one of its iterations. -/
def Writes (w : Inst) (v : Nat) (r : Point) : Prop := w.writes = v ∧ ∃ q ∈ iterations w, Reaches w.written q r

/-- A variable computed by one of the equations. -/
def Computed (writers : List Inst) (v : Nat) : Prop := ∃ w ∈ writers, w.writes = v

/-- The accesses are to elements of the variables. -/
def InBounds (dom : Nat → Finset Point) (t : Template) (p : Point) : Prop :=
  ∀ v subs r, Has v subs t → Reaches subs p r → r ∈ dom v

/-- The stored ranges have no common points. -/
def DisjointRanges (rep : Finset Point → List (Finset Point)) : Prop :=
  ∀ s, (rep s).Pairwise fun a b => ∀ p, ¬ (p ∈ a ∧ p ∈ b)

/-- The equations that are not for IDA: each element of the variables they compute, `dom` being all elements, is written by
exactly one of them; they can be made explicit. -/
structure Writers {α : Type} (D : Domain α) (dom : Nat → Finset Point) (explicitate : Inst → Option Template)
    (writers : List Inst) : Prop where
  nodup : writers.Nodup
  wellFormed : ∀ w ∈ writers, WellFormed w
  covers : ∀ v, Computed writers v → ∀ r ∈ dom v, ∃ w ∈ writers, Writes w v r
  once : ∀ v r, ∀ w ∈ writers, ∀ w' ∈ writers, Writes w v r → Writes w' v r → w = w'
  explicit : ExplicitOk D explicitate
  inBounds : ∀ w ∈ writers, ∀ x, explicitate w = some x → ∀ q ∈ iterations w, InBounds dom x q

/-- An equation for IDA, matched with a variable that the others do not compute. -/
structure ForIda (dom : Nat → Finset Point) (writers : List Inst) (op : Inst) : Prop where
  wellFormed : WellFormed op
  lhs : InScope op.tmpl.inds op.tmpl.lhs
  rhs : InScope op.tmpl.inds op.tmpl.rhs
  own : ¬ Computed writers op.writes
  inBounds : ∀ p ∈ iterations op, InBounds dom op.tmpl p

/-- The scalar equations of a set of equations, each by the element it is matched with. -/
def scalars (l : List Inst) : Multiset (Nat × Option Point) :=
  (l.map fun op => (iterations op).val.map fun p => (op.writes, element op.written p)).sum

/-- There is no algebraic loop: the elements computed can be numbered such that each is computed from elements with lower
numbers, and from variables of IDA. -/
def Acyclic (explicitate : Inst → Option Template) (writers : List Inst) : Prop :=
  ∃ rank : Nat → Point → Nat, ∀ w ∈ writers, ∀ x, explicitate w = some x → ∀ q ∈ iterations w, ∀ r, Reaches w.written q r →
    ∀ v subs r', ReadsIn v subs x.rhs → Computed writers v → Reaches subs q r' → rank v r' < rank w.writes r

end Marco.Spec.IdaRep
