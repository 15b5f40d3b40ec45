import Verif.Model.RuntimeChecks
import Mathlib.Analysis.SpecialFunctions.Trigonometric.Inverse
import Mathlib.Analysis.SpecialFunctions.Pow.Real
import Mathlib.Data.List.Forall2

/-!
# What the checks at run time have to tell

The operands are valid if the operation touches only elements that exist, if the shapes fit, and if
the result of the function exists. None of the notions below uses the functions of the model.
-/

namespace Marco.Spec.Checks

open Marco.Checks

/-- All the checks exist and hold. -/
def Passes (r : Option (List Bool)) : Prop := ∃ cs, r = some cs ∧ ∀ c ∈ cs, c = true

/-- There is one index per dimension, each of them inside the dimension. -/
def Inside (dims : List ℕ) (indices : List ℤ) : Prop :=
  List.Forall₂ (fun (i : ℤ) (d : ℕ) => 0 ≤ i ∧ i < d) indices dims

/-- The `k`-th element of the range `b : s : e` exists: `e` is not passed. -/
def Reaches (b e s : ℤ) (k : ℕ) : Prop :=
  (0 < s ∧ b + k * s ≤ e) ∨ (s < 0 ∧ e ≤ b + k * s)

/-- The elements selected by a subscript of a dimension with `d` elements exist. -/
def InBounds : Sub → ℕ → Prop
  | .index i, d => 0 ≤ i ∧ i < d
  | .range b e s, d => ∀ k : ℕ, Reaches b e s k → 0 ≤ b + k * s ∧ b + k * s < d
  | .unbounded, _ => True

/-- The subscripts belong to the first dimensions, and select elements that exist. -/
def AllInBounds (dims : List ℕ) (subs : List Sub) : Prop :=
  subs.length ≤ dims.length ∧ ∀ (k : ℕ) (s : Sub) (d : ℕ), subs[k]? = some s → dims[k]? = some d →
    InBounds s d

/-- The shape of the elements selected by the subscripts of a tensor: scalars drop the dimension, a
range leaves as many elements as it has, the other dimensions stay as they are. -/
inductive Shape : List ℕ → List Sub → List ℕ → Prop
  | rest (ds : List ℕ) : Shape ds [] ds
  | index {d i ds ss l} : Shape ds ss l → Shape (d :: ds) (.index i :: ss) l
  | range {d b e s n ds ss l} : (∀ k : ℕ, k < n ↔ Reaches b e s k) → Shape ds ss l →
      Shape (d :: ds) (.range b e s :: ss) (n :: l)
  | unbounded {d ds ss l} : Shape ds ss l → Shape (d :: ds) (.unbounded :: ss) (d :: l)

/-- The result of the function exists, among the real numbers. -/
def Defined : Fn → ℝ → Prop
  | .acos, x => ∃ y, Real.cos y = x
  | .asin, x => ∃ y, Real.sin y = x
  | .log, x => ∃ y, Real.exp y = x
  | .log10, x => ∃ y : ℝ, (10 : ℝ) ^ y = x
  | .sqrt, x => ∃ y, y * y = x

/-- The steps of the ranges are not zero. -/
def Steps (subs : List Sub) : Prop := ∀ b e s, Sub.range b e s ∈ subs → s ≠ 0

/-- The ranges have elements. -/
def Filled (subs : List Sub) : Prop := ∀ b e s, Sub.range b e s ∈ subs → Reaches b e s 0

end Marco.Spec.Checks
