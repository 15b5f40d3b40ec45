import Verif.Model.Explicitate

/-! # The meaning of the equations -/

namespace Marco.Spec
open Marco.Equations

/-- Values of the variables, of the inductions and of the functions. -/
structure Env (K : Type) where
  /-- the value of the access to be made explicit -/
  x : K
  /-- the values of the other variables -/
  atom : Nat → K
  /-- the values of the inductions -/
  arg : Nat → K
  /-- the other operations -/
  fn : Nat → (n : Nat) → (Fin n → K) → K

variable {K : Type}

/-- The value of an expression (that of a quotient by zero is irrelevant, see `Defd`). -/
def val [Field K] (v : Env K) : Expr K → K
  | .x => v.x
  | .atom n => v.atom n
  | .arg n => v.arg n
  | .const c => c
  | .neg a => - val v a
  | .add _ a b => val v a + val v b
  | .sub _ a b => val v a - val v b
  | .mul _ a b => val v a * val v b
  | .div _ a b => val v a / val v b
  | .app f n args => v.fn f n fun i => val v (args i)

/-- No divisor is zero. -/
def Defd [Field K] (v : Env K) : Expr K → Prop
  | .neg a => Defd v a
  | .add _ a b => Defd v a ∧ Defd v b
  | .sub _ a b => Defd v a ∧ Defd v b
  | .mul _ a b => Defd v a ∧ Defd v b
  | .div _ a b => Defd v a ∧ Defd v b ∧ val v b ≠ 0
  | .app _ _ args => ∀ i, Defd v (args i)
  | _ => True

/-- `x` does not occur. -/
def Free : Expr K → Prop
  | .x => False
  | .neg a => Free a
  | .add _ a b => Free a ∧ Free b
  | .sub _ a b => Free a ∧ Free b
  | .mul _ a b => Free a ∧ Free b
  | .div _ a b => Free a ∧ Free b
  | .app _ _ args => ∀ i, Free (args i)
  | _ => True

/-- The `inverse` annotations written by the user are right: `g` computes the argument `i` from the
result and the other arguments. -/
def AnnOk (v : Env K) (ann : Expr.Annotations) : Prop :=
  ∀ f n i g js, ann f n i = some (g, js) → ∀ (as : Fin n → K) (h : i < n) (r : K),
    v.fn f n as = r ↔
      as ⟨i, h⟩ = v.fn g js.length fun k => if h : js.get k < n then as ⟨js.get k, h⟩ else r

/-- An inverse function does not take the argument it computes. -/
def AnnFree (ann : Expr.Annotations) : Prop :=
  ∀ f n i g js, ann f n i = some (g, js) → i ∉ js

end Marco.Spec
