import Verif.Model.Metadata
import Verif.Spec.VariableFilter

/-! # What the description of the variables has to say -/

namespace Marco.Spec.Meta
open Marco Marco.Metadata VF

/-- Names that begin with two underscores belong to the compiler. -/
def Reserved (n : Name) : Prop := ∃ r, n = '_' :: '_' :: r

/-- The variable with that number: the variables of the compiler do not count. -/
inductive Numbered : List MVar → Nat → MVar → Prop
  | here {v : MVar} {l : List MVar} : ¬ Reserved v.name → Numbered (v :: l) 0 v
  | skip {w v : MVar} {l : List MVar} {n : Nat} : Reserved w.name → Numbered l n v → Numbered (w :: l) n v
  | next {w v : MVar} {l : List MVar} {n : Nat} : ¬ Reserved w.name → Numbered l n v →
      Numbered (w :: l) (n + 1) v

/-- The (0-based) element belongs to the variable, and the user asked for it: with an element of the
filter for the variable, or with one for the derivative of a variable. -/
def Asked (match_ : Name → Name → Bool) (f : Filter) (m : MModel) (v : MVar) (p : List Int) : Prop :=
  p.length = v.shape.length ∧
  (∀ (k n : Nat) (x : Int), v.shape[k]? = some n → p[k]? = some x → 0 ≤ x ∧ x < n) ∧
  ((m.state v.name = none ∧ Shown (f.getVariableInfo match_ v.name v.shape.length) (p.map (· + 1))) ∨
    ∃ s, m.state v.name = some s ∧ Shown (f.getVariableDerInfo match_ s v.shape.length) (p.map (· + 1)))

/-- The program lists the element in its `k`-th range of the variable. -/
def Listed {V : Type} (P : Program V) (n : Nat) (k : Int) (p : List Int) : Prop :=
  0 ≤ k ∧ k < P.getVariableNumOfPrintableRanges n ∧
  ∀ (d : Nat) (x : Int), p[d]? = some x →
    P.getVariablePrintableRangeBegin n k d ≤ x ∧ x < P.getVariablePrintableRangeEnd n k d

/-- The answers for one variable. -/
structure Answers {V : Type} (m : MModel) (asked : MVar → List Int → Prop) (P : Program V) (n : Nat)
    (v : MVar) : Prop where
  name : P.getVariableName n = v.name
  rank : P.getVariableRank n = v.shape.length
  /-- The value is that of the element whose indices are in the memory. -/
  value : ∀ (σ : Env V) (p rest : List Int), p.length = v.shape.length →
    P.getVariableValue n σ (p ++ rest) = σ v.name p
  /-- The derivative is given by its number. -/
  derivative : ∀ d, m.der v.name = some d →
    ∃ j w, Numbered m.vars j w ∧ w.name = d ∧ P.getDerivative n = j
  noDerivative : m.der v.name = none → P.getDerivative n = -1
  /-- The variable is printable when there is something to print. -/
  printable : P.isPrintable n = true ↔ ∃ p, asked v p
  /-- For arrays: the ranges consist of the elements to be printed, each in one range. -/
  listed : v.shape ≠ [] → ∀ k p, p.length = v.shape.length → Listed P n k p → asked v p
  once : v.shape ≠ [] → ∀ p, asked v p → ∃! k, Listed P n k p

/-- The program describes the variables. -/
structure Describes {V : Type} [Zero V] (m : MModel) (asked : MVar → List Int → Prop) (P : Program V) : Prop where
  count : ∀ i : Int, 0 ≤ i ∧ i < P.getNumOfVariables ↔ ∃ n v, i = (n : Nat) ∧ Numbered m.vars n v
  answers : ∀ n v, Numbered m.vars n v → Answers m asked P n v
  /-- Numbers without variable. -/
  unknown : ∀ i : Int, ¬ (0 ≤ i ∧ i < P.getNumOfVariables) →
    P.getVariableName i = [] ∧ P.getVariableRank i = 0 ∧ P.isPrintable i = false ∧
    P.getVariableNumOfPrintableRanges i = 0 ∧ P.getDerivative i = -1 ∧
    ∀ σ mem, P.getVariableValue i σ mem = 0

/-- The bounds of the filter lie in the array, and select something. -/
def BoundsOk (shape : List Nat) (rs : List VRange) : Prop :=
  ∀ (k n : Nat) (r : VRange), shape[k]? = some n → rs[k]? = some r →
    0 < n ∧ (r.lower = -1 ∨ 1 ≤ r.lower ∧ r.lower ≤ n) ∧ (r.upper = -1 ∨ 1 ≤ r.upper ∧ r.upper ≤ n) ∧
    (r.lower = -1 ∨ r.upper = -1 ∨ r.lower ≤ r.upper)

/-- What the earlier passes and the user guarantee: the names are symbols of a table, the derivatives
are variables of the model that are not reserved, and the filter has proper bounds. -/
structure Proper (match_ : Name → Name → Bool) (f : Filter) (m : MModel) : Prop where
  names : (m.vars.map (·.name)).Nodup
  ders : ∀ v ∈ m.vars, ∀ d, m.der v.name = some d → ¬ Reserved d ∧ ∃ w ∈ m.vars, w.name = d
  sizes : ∀ v ∈ m.vars, ∀ n ∈ v.shape, 0 < n
  bounds : ∀ v ∈ m.vars, ∀ i ∈ f.getVariableInfo match_ v.name v.shape.length, i.visible = true →
    BoundsOk v.shape i.ranges

/-- The hash tables give each entry once, in some order. -/
def AnyOrder (o : Orders) : Prop := (∀ l, (o.set l).Perm l) ∧ ∀ l, (o.map l).Perm l

end Marco.Spec.Meta
