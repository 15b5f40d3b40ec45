import Verif.Model.ArrayLowering
import Mathlib.Data.Matrix.Mul
import Mathlib.Data.List.Forall2
import Mathlib.Algebra.BigOperators.Group.Finset.Basic

/-!
# What the operations on arrays mean in Modelica (the specification of the language, section 10.6)
-/

namespace Marco.Spec.Arrays

open Marco.Linalg

/-- The sizes of a value; a scalar has none. -/
def shapeOf : Val → List ℕ
  | .scalar _ _ => []
  | .tensor t => t.shape

/-- The elements of a value. -/
def elemOf : Val → List ℕ → ℚ
  | .scalar _ x, _ => x
  | .tensor t, p => t.get p

/-- The sizes at run time are those of the type, where they are known. -/
def Fits : List (Option ℕ) → List ℕ → Prop :=
  List.Forall₂ fun d n => ∀ k, d = some k → k = n

/-- A tensor fits its type; the elements of a tensor of integers are integers. -/
def WF : Val → Prop
  | .scalar t x => t = .int → ∃ z : ℤ, x = z
  | .tensor t => Fits t.ty.dims t.shape ∧ (t.ty.elem = .int → ∀ p, ∃ z : ℤ, t.get p = z)

/-- The indices of the elements. -/
def Inside (p shape : List ℕ) : Prop := List.Forall₂ (· < ·) p shape

/-- A value is the array with these sizes and elements. -/
def IsArray (v : Val) (shape : List ℕ) (f : List ℕ → ℚ) : Prop :=
  shapeOf v = shape ∧ ∀ p, Inside p shape → elemOf v p = f p

/-- The matrix of a value. -/
def matrixOf (n : ℕ) (f : List ℕ → ℚ) : Matrix (Fin n) (Fin n) ℚ := fun i j => f [i, j]

/-- `f` are the elements of the result of an operation, its sizes are `shape`. -/
inductive Means : BinOp → Val → Val → List ℕ → (List ℕ → ℚ) → Prop
  | add {l r : Tensor} : l.shape = r.shape → Means .add (.tensor l) (.tensor r) l.shape fun p => l.get p + r.get p
  | sub {l r : Tensor} : l.shape = r.shape → Means .sub (.tensor l) (.tensor r) l.shape fun p => l.get p - r.get p
  | addEW {l r : Tensor} : l.shape = r.shape → Means .addEW (.tensor l) (.tensor r) l.shape fun p => l.get p + r.get p
  | subEW {l r : Tensor} : l.shape = r.shape → Means .subEW (.tensor l) (.tensor r) l.shape fun p => l.get p - r.get p
  | mulEW {l r : Tensor} : l.shape = r.shape → Means .mulEW (.tensor l) (.tensor r) l.shape fun p => l.get p * r.get p
  | divEW {l r : Tensor} : l.shape = r.shape → (∀ p, Inside p r.shape → r.get p ≠ 0) →
      Means .divEW (.tensor l) (.tensor r) l.shape fun p => l.get p / r.get p
  | addST {t x} {r : Tensor} : Means .addEW (.scalar t x) (.tensor r) r.shape fun p => x + r.get p
  | addTS {t x} {l : Tensor} : Means .addEW (.tensor l) (.scalar t x) l.shape fun p => l.get p + x
  | subST {t x} {r : Tensor} : Means .subEW (.scalar t x) (.tensor r) r.shape fun p => x - r.get p
  | subTS {t x} {l : Tensor} : Means .subEW (.tensor l) (.scalar t x) l.shape fun p => l.get p - x
  | mulST {t x} {r : Tensor} : Means .mulEW (.scalar t x) (.tensor r) r.shape fun p => x * r.get p
  | mulTS {t x} {l : Tensor} : Means .mulEW (.tensor l) (.scalar t x) l.shape fun p => l.get p * x
  | divST {t x} {r : Tensor} : (∀ p, Inside p r.shape → r.get p ≠ 0) →
      Means .divEW (.scalar t x) (.tensor r) r.shape fun p => x / r.get p
  | divTS {t x} {l : Tensor} : x ≠ 0 → Means .divEW (.tensor l) (.scalar t x) l.shape fun p => l.get p / x
  | div {t x} {l : Tensor} : x ≠ 0 → Means .div (.tensor l) (.scalar t x) l.shape fun p => l.get p / x
  | scale {t x} {r : Tensor} : Means .mul (.scalar t x) (.tensor r) r.shape fun p => x * r.get p
  | scaleR {t x} {l : Tensor} : Means .mul (.tensor l) (.scalar t x) l.shape fun p => l.get p * x
  | dot {l r : Tensor} {k} : l.shape = [k] → r.shape = [k] →
      Means .mul (.tensor l) (.tensor r) [] fun _ => ∑ i ∈ Finset.range k, l.get [i] * r.get [i]
  | vecmat {l r : Tensor} {k n} : l.shape = [k] → r.shape = [k, n] →
      Means .mul (.tensor l) (.tensor r) [n] fun p => ∑ i ∈ Finset.range k, l.get [i] * r.get (i :: p)
  | matvec {l r : Tensor} {m k} : l.shape = [m, k] → r.shape = [k] →
      Means .mul (.tensor l) (.tensor r) [m] fun p => ∑ i ∈ Finset.range k, l.get (p ++ [i]) * r.get [i]
  | matmul {l r : Tensor} {m k n} {f : List ℕ → ℚ} : l.shape = [m, k] → r.shape = [k, n] →
      (∀ i j, f [i, j] = ∑ h ∈ Finset.range k, l.get [i, h] * r.get [h, j]) →
      Means .mul (.tensor l) (.tensor r) [m, n] f
  | pow {l : Tensor} {n e : ℕ} {f} : l.shape = [n, n] → matrixOf n f = matrixOf n l.get ^ e →
      Means .pow (.tensor l) (.scalar .int e) [n, n] f

end Marco.Spec.Arrays
