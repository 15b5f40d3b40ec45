import Verif.Model.DependencyGraph
import Verif.Spec.Scheduling

/-! # Dependencies among equations -/

namespace Marco.Spec
open Marco.DepGraph

/-- Some element of a variable is read by equation `i` and written by equation `j`. -/
def ElemDepends (eqs : List ArrEq) (i j : Nat) : Prop :=
  ∃ ei ej, eqs[i]? = some ei ∧ eqs[j]? = some ej ∧ ∃ r ∈ ei.reads, ∃ w ∈ ej.writes, r.1 = w.1 ∧
    ∃ q, InImage r.2 ei.it q ∧ InImage w.2 ej.it q

/-- Some element of a variable is read by a scalar equation and written by another one. -/
def ScalarDepends (eqs : List ArrEq) (x y : Nat × Point) : Prop :=
  ∃ ei ej, eqs[x.1]? = some ei ∧ eqs[y.1]? = some ej ∧ Has ei.it x.2 ∧ Has ej.it y.2 ∧
    ∃ r ∈ ei.reads, ∃ w ∈ ej.writes, r.1 = w.1 ∧
      ∃ q, (∃ t, r.2.mapPoint x.2 = some t ∧ Has t q) ∧ ∃ t, w.2.mapPoint y.2 = some t ∧ Has t q

/-- Well-formed systems: each variable has a rank; the accesses of an equation of rank `n` to a
variable of rank `k` satisfy `P n k`; the write accesses of an equation are to one variable. -/
structure SystemOk (P : Nat → Nat → AccessFn → Prop) (eqs : List ArrEq) : Prop where
  acc : ∃ rk : Nat → Nat, ∀ e ∈ eqs, ∃ n, n ≠ 0 ∧ SetOk n e.it ∧
    ∀ a ∈ e.reads ++ e.writes, P n (rk a.1) a.2
  oneVar : ∀ e ∈ eqs, ∀ w ∈ e.writes, ∀ w' ∈ e.writes, w.1 = w'.1

/-- An affine access that uses no dimension twice, if it is an offset access. -/
def ReadOnceOk (n k : Nat) (f : AccessFn) : Prop :=
  ReadOk n k f ∧ ∀ m, f = .roto m → UsedOnce m

/-- Well-formed systems of scalar equations: at every iteration point the accesses give index sets
of the rank of their variable, and the write accesses of an equation (there is at least one) all give
the same single element. -/
structure ScalarSystemOk (eqs : List ArrEq) : Prop where
  rank : ∃ rk : Nat → Nat, ∀ e ∈ eqs, ∀ a ∈ e.reads ++ e.writes, ∀ p, Has e.it p →
    ∃ t, a.2.mapPoint p = some t ∧ SetOk (rk a.1) t
  writes : ∀ e ∈ eqs, e.writes ≠ []
  oneElem : ∀ e ∈ eqs, ∀ p, Has e.it p → ∃ v q, ∀ w ∈ e.writes, w.1 = v ∧ MapsTo w.2 p q

end Marco.Spec
