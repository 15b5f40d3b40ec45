import Verif.Model.IndexReduction
import Verif.Spec.Derivative
import Mathlib.Analysis.Calculus.ContDiff.Basic

/-!
# The solutions of a model

A trajectory gives the value of each element of each variable at each time. Nothing here refers to the
functions of the model of the pass other than the data they work on.
-/

namespace Marco.Spec.Reduction
open Marco.Derivatives Marco.IndexReduction
open scoped ContDiff

/-- The values of the elements of the variables along time. -/
abbrev Traj := ℝ → Elem → ℝ

/-- The element read at a point. -/
def elemAt (v : Nat) (subs : List Sub) (p : List Int) : Elem := (v, subs.map (Sub.val p))

/-- The values read by a template. -/
noncomputable def values (x : Elem → ℝ) (accs : List Acc) (p : List Int) (k : Nat) : ℝ :=
  match accs[k]? with
  | some (.elem v subs) => x (elemAt v subs p)
  | some (.ind j) => ((p.getD j 0 : Int) : ℝ)
  | none => 0

/-- The sides have the same value. -/
def Holds (x : Elem → ℝ) (t : ℝ) (e : Tmpl) (p : List Int) : Prop :=
  ∃ a, ev (values x e.accs p) t e.lhs = some a ∧ ev (values x e.accs p) t e.rhs = some a

/-- `d` at `i` is the derivative of `v` at `i`. -/
def Linked (s : IState) (v d : Nat) (i : List Int) : Prop :=
  s.der v = some d ∧ (s.rank v = 0 ∧ i = [] ∨ s.rank v ≠ 0 ∧ i ∈ s.derIdx v)

/-- The trajectory satisfies, in the open set of times `O`, the equations; the derivative variables have
the derivatives; the read-only variables do not change. -/
structure Solution (O : Set ℝ) (s : IState) (x : Traj) : Prop where
  /-- the equations -/
  eqs : ∀ e ∈ s.eqs, ∀ p ∈ e.points, ∀ t ∈ O, Holds (x t) t e.tmpl p
  /-- the derivatives -/
  ders : ∀ v d i, Linked s v d i → ∀ t ∈ O, HasDerivAt (fun r => x r (v, i)) (x t (d, i)) t
  /-- the read-only variables -/
  consts : ∀ v < s.next, s.readOnly v = true → ∀ i, ∀ t ∈ O, HasDerivAt (fun r => x r (v, i)) 0 t

/-- All the elements are smooth functions of time. -/
def Regular (O : Set ℝ) (x : Traj) : Prop := ∀ el, ContDiffOn ℝ ∞ (fun t => x t el) O

/-- The element is read by an equation. -/
def Reads (s : IState) (el : Elem) : Prop :=
  ∃ e ∈ s.eqs, ∃ p ∈ e.points, ∃ v subs, Acc.elem v subs ∈ e.tmpl.accs ∧ elemAt v subs p = el

/-- The expression reads only the first `n` values. -/
def Below (n : Nat) : Expr → Prop
  | .var k => k < n
  | .neg a => Below n a
  | .add _ a b => Below n a ∧ Below n b
  | .sub _ a b => Below n a ∧ Below n b
  | .mul _ a b => Below n a ∧ Below n b
  | .div _ a b => Below n a ∧ Below n b
  | .pow _ a b => Below n a ∧ Below n b
  | .atan2 a b => Below n a ∧ Below n b
  | .fn _ a => Below n a
  | .sum _ body => ∀ i, Below n (body i)
  | .malformed a => Below n a
  | _ => True

/-- A model before the pass: the equations read existing variables, and elements of derivative variables
only where these are derivatives; a variable is the derivative of one other variable; read-only variables
have no derivatives and are not derivatives. -/
structure Proper (s : IState) : Prop where
  /-- the derivatives are variables -/
  known : ∀ v d, s.der v = some d → v < s.next ∧ d < s.next
  /-- of other variables, not read-only -/
  plain : ∀ v d, s.der v = some d → v ≠ d ∧ s.readOnly v = false ∧ s.readOnly d = false
  /-- one derivative each -/
  inj : ∀ v w d, s.der v = some d → s.der w = some d → v = w
  /-- second derivatives of the elements having a first one -/
  chain : ∀ v d w i, s.der v = some d → Linked s d w i → Linked s v d i
  /-- the variables read exist -/
  reads : ∀ e ∈ s.eqs, ∀ v subs, Acc.elem v subs ∈ e.tmpl.accs → v < s.next
  /-- the expressions read the values of the template -/
  below : ∀ e ∈ s.eqs, Below e.tmpl.accs.length e.tmpl.lhs ∧ Below e.tmpl.accs.length e.tmpl.rhs
  /-- derivatives are read where they are derivatives -/
  derived : ∀ v d i, s.der v = some d → Reads s (d, i) → Linked s v d i

/-- Each element an equation reads at a point is of a read-only variable or has a derivative. -/
def Covered (s : IState) (e : Tmpl) (p : List Int) : Prop :=
  ∀ v subs, Acc.elem v subs ∈ e.accs →
    s.readOnly v = true ∨ ∃ d, Linked s v d (subs.map (Sub.val p))

/-- A request as made for the vertices visited: elements, of variables that are not read-only, reached
from the equations reading them; points of an equation whose elements have all been differentiated
before. -/
def Visited (s : IState) : Req → Prop
  | .var v I => s.readOnly v = false ∧ (s.rank v = 0 → I ⊆ {[]}) ∧ ∀ i ∈ I, Reads s (v, i)
  | .eq e I => ∃ E, s.eqs[e]? = some E ∧ I ⊆ E.points ∧ ∀ p ∈ I, Covered s E.tmpl p

/-- The equation asked for is differentiable at the solutions. -/
def SmoothReq (O : Set ℝ) (s : IState) : Req → Prop
  | .var _ _ => True
  | .eq e I => ∀ x, Regular O x → Solution O s x → ∀ E, s.eqs[e]? = some E → ∀ p ∈ I, ∀ t ∈ O,
      Smooth (values (x t) E.tmpl.accs p) t E.tmpl.lhs ∧
      Smooth (values (x t) E.tmpl.accs p) t E.tmpl.rhs

/-- A condition on each of the requests, in the state where it is made. -/
def Along (C : IState → Req → Prop) : IState → List Req → Prop
  | _, [] => True
  | s, r :: rs => C s r ∧ ∀ s', s.step r = some s' → Along C s' rs

end Marco.Spec.Reduction
