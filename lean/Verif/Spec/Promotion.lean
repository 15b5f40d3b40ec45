import Verif.Model.Promotion
import Verif.Spec.EquationSplit

/-!
# When a variable is a parameter

The scalar variables of a variable are its elements; a scalar variable is its own only element.
-/

namespace Marco.Spec
open Marco Split Promo

variable {β : Type}

/-- The elements of a variable. -/
def varElems (m : Model β) (v : Nat) : Finset Point :=
  if m.indices v = ∅ then {[]} else m.indices v

/-- The elements of its matched variable that an equation is matched with. -/
def matchedElems (m : Model β) (e : Eqn β) : Finset Point :=
  if m.indices e.matched = ∅ then {[]} else e.matchedIndices

/-- The elements of a variable that an equation reaches through an access. -/
def accessElems (m : Model β) (e : Eqn β) (a : Access) : Finset Point :=
  if m.indices a.var = ∅ then {[]} else (eqPoints e.toInst).image a.fn

/-- The equation is matched with elements of a variable that it accesses. -/
structure EqnOk (m : Model β) (e : Eqn β) : Prop where
  indices : IndicesOk e.toInst
  scalar : m.indices e.matched = ∅ → e.matchedIndices = ∅ ∧ ∃ a ∈ e.accesses, a.var = e.matched
  array : m.indices e.matched ≠ ∅ → ∃ w, MatchedBy e.toInst w
  inside : e.matchedIndices ⊆ m.indices e.matched

/-- The equation at `k` is matched with the element `u` of `v`. -/
def Solves (m : Model β) (k : Pos m) (v : Nat) (u : Point) : Prop :=
  (m.main.get k).matched = v ∧ u ∈ matchedElems m (m.main.get k)

/-- The equations determine values that do not change: they use neither the time nor derivatives, and
all the elements they access are parameters or are determined by the same equations. -/
def Constant (m : Model β) (eqs : Set (Pos m)) : Prop :=
  ∀ k ∈ eqs, (m.main.get k).usesTime = false ∧ m.derivative (m.main.get k).matched = false ∧
    ∀ a ∈ (m.main.get k).accesses, m.readOnly a.var = true ∨
      ∀ u ∈ accessElems m (m.main.get k) a, ∃ k' ∈ eqs, Solves m k' a.var u

/-- An access reaches only elements determined by the main model, or none of them. -/
def Wholly (m : Model β) (e : Eqn β) (a : Access) : Prop :=
  (∀ u ∈ accessElems m e a, ∃ k, Solves m k a.var u) ∨
    ∀ u ∈ accessElems m e a, ∀ k, ¬ Solves m k a.var u

/-- All the equations matched with an element accessed by one of them are among them, too. -/
def ClosedUnder (m : Model β) (eqs : Set (Pos m)) : Prop :=
  ∀ k ∈ eqs, ∀ a ∈ (m.main.get k).accesses, m.readOnly a.var = false →
    ∀ u ∈ accessElems m (m.main.get k) a, ∀ k', Solves m k' a.var u → k' ∈ eqs

/-- The components are visited in the order of the dependencies: an equation that determines an element
accessed in a component is in this component or in one before. -/
def DependenciesFirst (m : Model β) (sccs : List (List (Pos m))) : Prop :=
  ∀ i : Fin sccs.length, ∀ k ∈ sccs.get i, ∀ a ∈ (m.main.get k).accesses,
    m.readOnly a.var = false → ∀ u ∈ accessElems m (m.main.get k) a, ∀ k', Solves m k' a.var u →
      ∃ j ≤ i, k' ∈ sccs.get j

/-- The elements of a variable that a list of equations is matched with, with repetitions. -/
def solvedBy (m : Model β) (es : List (Eqn β)) (v : Nat) : Multiset Point :=
  ((es.filter fun e => decide (e.matched = v)).map fun e => (matchedElems m e).val).sum

/-- All the accesses whose elements are matched agree. -/
def OneWrite (e : Inst β) : Prop :=
  ∀ f g, Inside e f → Inside e g → ∀ p ∈ e.indices, f p = g p

/-- The equation is a part of another one: some of its scalar equations. -/
structure PartOf (e' e : Eqn β) : Prop where
  body : e'.body = e.body
  dims : e'.dims = e.dims
  matched : e'.matched = e.matched
  indices : e'.indices ⊆ e.indices

end Marco.Spec
