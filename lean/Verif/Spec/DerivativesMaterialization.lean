import Verif.Model.DerivativesMaterialization
import Verif.Spec.EulerForward

/-! # What the materialization and the initialization of the derivatives have to do -/

namespace Marco.Spec.DerMat
open Marco.DerMat
open Marco.Spec.Euler (InShape)

variable {K : Type}

/-- The value of an expression, with the values of the variables, those of their derivatives, the time
and the induction variables. (The derivative of other expressions has no value; none is used.) -/
def eval [Zero K] (σ δ : String → Point → K) (t : K) : Point → Ex K → K
  | _, .const k => k
  | _, .time => t
  | p, .get v idx => σ v (idx.map (· p))
  | p, .der (.get v idx) => δ v (idx.map (· p))
  | _, .der _ => 0
  | p, .un f a => f (eval σ δ t p a)
  | p, .bin f a b => f (eval σ δ t p a) (eval σ δ t p b)
  | p, .red n z f a => (List.range n).foldl (fun acc (k : ℕ) => f acc (eval σ δ t (p ++ [(k : ℤ)]) a)) z

/-- No derivative occurs. -/
def NoDer : Ex K → Prop
  | .der _ => False
  | .un _ a => NoDer a
  | .bin _ a b => NoDer a ∧ NoDer b
  | .red _ _ _ a => NoDer a
  | _ => True

/-- No derivative occurs in a region. -/
def NoHidden : Ex K → Prop
  | .der a => NoHidden a
  | .un _ a => NoHidden a
  | .bin _ a b => NoHidden a ∧ NoHidden b
  | .red _ _ _ a => NoDer a
  | _ => True

/-- Only elements of variables are derived. -/
def Elementwise (m : Model K) : Ex K → Prop
  | .der (.get v idx) => ∃ shape, (v, shape) ∈ m.vars ∧ idx.length = shape.length
  | .der _ => False
  | .un _ a => Elementwise m a
  | .bin _ a b => Elementwise m a ∧ Elementwise m b
  | .red _ _ _ a => Elementwise m a
  | _ => True

/-- The derivative of the element `q` of `v` occurs. -/
inductive Derives : Point → Ex K → String → Point → Prop where
  | here {p : Point} {v : String} {idx : List (Point → ℤ)} :
      Derives p (.der (.get v idx)) v (idx.map (· p))
  | un {p : Point} {f : K → K} {a : Ex K} {v : String} {q : Point} :
      Derives p a v q → Derives p (.un f a) v q
  | left {p : Point} {f : K → K → K} {a b : Ex K} {v : String} {q : Point} :
      Derives p a v q → Derives p (.bin f a b) v q
  | right {p : Point} {f : K → K → K} {a b : Ex K} {v : String} {q : Point} :
      Derives p b v q → Derives p (.bin f a b) v q
  | red {p : Point} {n : ℕ} {z : K} {f : K → K → K} {a : Ex K} {v : String} {q : Point} (k : ℕ) :
      k < n → Derives (p ++ [(k : ℤ)]) a v q → Derives p (.red n z f a) v q

/-- A derivative of the variable occurs. -/
def Occurs (v : String) : Ex K → Prop
  | .der (.get w _) => w = v
  | .der a => Occurs v a
  | .un _ a => Occurs v a
  | .bin _ a b => Occurs v a ∨ Occurs v b
  | .red _ _ _ a => Occurs v a
  | _ => False

/-- The points of an equation: the empty one if there are no induction variables. -/
def InEquation (e : Equation K) (p : Point) : Prop :=
  match e.indices with
  | none => p = []
  | some ps => p ∈ ps

/-- The element is derived somewhere in the model. -/
def Derived (m : Model K) (v : String) (q : Point) : Prop :=
  (∃ e ∈ m.equations, ∃ a ∈ e.sides, ∃ p, InEquation e p ∧ Derives p a v q) ∨
    ∃ l ∈ m.algorithms, ∃ a ∈ l, ∃ p, Derives p a v q

/-- Every name is declared once, a variable has one derivative, which is declared with the same shape,
iteration spaces are not empty, and only elements of variables are derived. -/
structure WellFormed (m : Model K) : Prop where
  names : (m.vars.map (·.1)).Nodup
  states : (m.derivatives.map (·.1)).Nodup
  derivs : (m.derivatives.map (·.2)).Nodup
  declared : ∀ v d, (v, d) ∈ m.derivatives → ∃ sh, (v, sh) ∈ m.vars ∧ (d, sh) ∈ m.vars
  spaces : ∀ e ∈ m.equations, e.indices ≠ some []
  elements : ∀ e ∈ m.equations, ∀ a ∈ e.sides, Elementwise m a
  algorithms : ∀ l ∈ m.algorithms, ∀ a ∈ l, Elementwise m a

/-- The names of new symbols are not in use. -/
def Fresh (fresh : List String → String → String) : Prop := ∀ used n, fresh used n ∉ used

/-- The new expression has no derivatives, and the value of the old one if the variables for the
derivatives have the values of the derivatives. -/
def Replaces [Zero K] (m' : Model K) (a a' : Ex K) : Prop :=
  NoDer a' ∧ ∀ (σ δ : String → Point → K), (∀ v d, (v, d) ∈ m'.derivatives → δ v = σ d) →
    ∀ t p, eval σ δ t p a' = eval σ δ t p a

/-- What the materialization has to do, apart from the derived indices: a variable for each derivative
that occurs, with the shape of the variable, and the replacement of the derivatives. -/
structure Materialized [Zero K] (m m' : Model K) : Prop where
  wellFormed : WellFormed m'
  vars : ∃ new, m'.vars = m.vars ++ new ∧
    m'.derivatives.map (·.2) = m.derivatives.map (·.2) ++ new.map (·.1)
  derivatives : ∃ new, m'.derivatives = m.derivatives ++ new ∧ ∀ v d, (v, d) ∈ new →
    (∃ e ∈ m.equations, ∃ a ∈ e.sides, Occurs v a) ∨ ∃ l ∈ m.algorithms, ∃ a ∈ l, Occurs v a
  equations : List.Forall₂ (fun e e' => e'.indices = e.indices ∧
    List.Forall₂ (Replaces m') e.sides e'.sides) m.equations m'.equations
  algorithms : List.Forall₂ (List.Forall₂ (Replaces m')) m.algorithms m'.algorithms

/-- The derived indices of the arrays are those of the model and those that are derived. -/
def IndicesExact (m m' : Model K) : Prop :=
  ∀ v q, q ≠ [] → ((v, q) ∈ m'.derived ↔ (v, q) ∈ m.derived ∨ Derived m v q)

/-- There is an equation that sets the element of the derivative to zero. -/
def ZeroEquation (i : Initialized) (d : String) (q : Point) : Prop := ∃ l, (d, l) ∈ i.zeros ∧ q ∈ l

/-- What the initialization has to do: one start value for each derivative, and exactly one equation
for each element of an array derivative that is not derived (and for nothing else). -/
structure Initializes (m : Model K) (derived : String → Point → Prop) (i : Initialized) : Prop where
  starts : i.starts.Nodup ∧ ∀ d, d ∈ i.starts ↔ ∃ v, (v, d) ∈ m.derivatives
  zeros : ∀ d q, ZeroEquation i d q ↔ ∃ v sh, (v, d) ∈ m.derivatives ∧ (d, sh) ∈ m.vars ∧ sh ≠ [] ∧
    InShape q sh ∧ ¬ derived v q
  once : (i.zeros.flatMap fun x => x.2.map fun q => (x.1, q)).Nodup
  proper : ∀ x ∈ i.zeros, x.2 ≠ []

end Marco.Spec.DerMat
