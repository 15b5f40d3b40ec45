import Verif.Model.EquationFunctions
import Verif.Spec.Scheduling

/-!
# What the function of an equation has to do
-/

namespace Marco.Spec.EqFn

open Marco.EqFn

/-- The loop orders a direction allows: `true` for increasing indices. -/
def Allowed : Dir → Bool → Prop
  | .any, _ => True
  | .forward, f => f = true
  | .backward, f => f = false
  | .unknown, _ => False

/-- `p` is executed before `q` by loops that run as told by the list. -/
def Before : List Bool → Point → Point → Prop
  | f :: fs, x :: xs, y :: ys => (if f then x < y else y < x) ∨ (x = y ∧ Before fs xs ys)
  | _, _, _ => False

/-- The value depends on the elements read only. -/
def ReadsOnly {E V : Type} (q : Equation E V) : Prop :=
  ∀ i m m', (∀ e ∈ q.reads i, m e = m' e) → q.value m i = q.value m' i

/-- No element is assigned for two indices. -/
def Injective {E V : Type} (q : Equation E V) (ranges : List Box) : Prop :=
  ∀ i j, InL i ranges → InL j ranges → q.target i = q.target j → i = j

/-- Whichever way the loops with free direction run, what is read has been assigned before, if it is
assigned at all. -/
def Respects {E V : Type} (dirs : List Dir) (q : Equation E V) (ranges : List Box) : Prop :=
  ∀ i j, InL i ranges → InL j ranges → q.target j ∈ q.reads i →
    ∀ fs, List.Forall₂ Allowed dirs fs → Before fs j i

/-- The equation holds for an index. -/
def HoldsAt {E V : Type} (q : Equation E V) (m : E → V) (i : Point) : Prop :=
  m (q.target i) = q.value m i

/-- No point is in two of the ranges. -/
def Disjoint (ranges : List Box) : Prop := ranges.Pairwise fun a b => ∀ p, InB p a → ¬ InB p b

end Marco.Spec.EqFn
