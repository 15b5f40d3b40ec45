import Verif.Model.EquationPath
import Mathlib.Data.List.Lex

/-!
# C46: the orders on expression paths and equation paths
-/

namespace Marco
namespace Props

/-- The order that is meant: at the first position at which the paths differ the smaller index, and
a proper prefix before its extensions. -/
def PathBefore (p q : List Nat) : Prop :=
  (∃ c, c ≠ [] ∧ q = p ++ c) ∨
  ∃ c x y s t, p = c ++ x :: s ∧ q = c ++ y :: t ∧ x < y

theorem lt_cons (x y : Nat) (p q : List Nat) :
    ExprPath.lt ⟨x :: p⟩ ⟨y :: q⟩ = true ↔ x < y ∨ (x = y ∧ ExprPath.lt ⟨p⟩ ⟨q⟩ = true) := by
  simp only [ExprPath.lt, List.zip_cons_cons, ExprPath.ltLoop, List.length_cons]
  rcases Nat.lt_trichotomy x y with h | h | h
  · simp [h]
  · subst h; simp
  · have h1 : ¬ x < y := by omega
    have h2 : x ≠ y := by omega
    simp [h, h1, h2]

theorem lt_iff_lex : ∀ p q : List Nat, ExprPath.lt ⟨p⟩ ⟨q⟩ = true ↔ List.Lex (· < ·) p q
  | [], [] => by simp [ExprPath.lt, ExprPath.ltLoop]
  | [], y :: q => by simp [ExprPath.lt, ExprPath.ltLoop]
  | x :: p, [] => by simp [ExprPath.lt, ExprPath.ltLoop]
  | x :: p, y :: q => by
    rw [lt_cons, lt_iff_lex p q]
    constructor
    · rintro (h | ⟨rfl, h⟩)
      · exact .rel h
      · exact .cons h
    · intro h
      cases h with
      | rel h => exact Or.inl h
      | cons h => exact Or.inr ⟨rfl, h⟩

/-- The comparison of two expression paths is the order that is meant. -/
theorem C46_expr_meaning : ∀ p q : ExprPath, p.lt q = true ↔ PathBefore p.path q.path := by
  rintro ⟨p⟩ ⟨q⟩
  dsimp only
  constructor
  · revert q
    induction p with
    | nil =>
      intro q h
      cases q with
      | nil => simp [ExprPath.lt, ExprPath.ltLoop] at h
      | cons y q => exact Or.inl ⟨y :: q, by simp, rfl⟩
    | cons x p ih =>
      intro q h
      cases q with
      | nil => simp [ExprPath.lt, ExprPath.ltLoop] at h
      | cons y q =>
        rcases (lt_cons x y p q).1 h with h | ⟨rfl, h'⟩
        · exact Or.inr ⟨[], x, y, p, q, rfl, rfl, h⟩
        · rcases ih q h' with ⟨c, h1, rfl⟩ | ⟨c, a, b, s, t, rfl, rfl, hab⟩
          · exact Or.inl ⟨c, h1, rfl⟩
          · exact Or.inr ⟨x :: c, a, b, s, t, rfl, rfl, hab⟩
  · rintro (⟨c, hc, rfl⟩ | ⟨c, a, b, s, t, rfl, rfl, hab⟩)
    · induction p with
      | nil =>
        cases c with
        | nil => exact absurd rfl hc
        | cons y c => simp [ExprPath.lt, ExprPath.ltLoop]
      | cons x p ih => exact (lt_cons x x p (p ++ c)).2 (Or.inr ⟨rfl, ih⟩)
    · induction c with
      | nil => exact (lt_cons a b s t).2 (Or.inl hab)
      | cons x c ih => exact (lt_cons x x _ _).2 (Or.inr ⟨rfl, ih⟩)

theorem C46_expr_eq : ∀ p q : ExprPath, p.eq q = true ↔ p = q := by
  rintro ⟨p⟩ ⟨q⟩
  rw [ExprPath.mk.injEq]
  revert q
  induction p with
  | nil => intro q; cases q <;> simp [ExprPath.eq]
  | cons x p ih =>
    intro q
    cases q with
    | nil => simp [ExprPath.eq]
    | cons y q =>
      have := ih q
      simp only [ExprPath.eq, List.length_cons, List.zip_cons_cons, List.all_cons, Bool.and_eq_true,
        beq_iff_eq, List.cons.injEq] at this ⊢
      rw [← this]
      constructor
      · rintro ⟨h1, h2, h3⟩; exact ⟨h2, by omega, h3⟩
      · rintro ⟨h1, h2, h3⟩; exact ⟨by omega, h1, h3⟩

/-- Strict total order on the expression paths, with `operator==` and `operator!=`. -/
theorem C46_expr (p q r : ExprPath) :
    p.lt p = false ∧ (p.lt q = true → q.lt r = true → p.lt r = true) ∧
    (p.lt q = true → q.lt p = false) ∧
    (p.eq q = true ↔ (p.lt q = false ∧ q.lt p = false)) ∧ (p.ne q = true ↔ p ≠ q) := by
  have hir : ∀ p : List Nat, ¬ List.Lex (· < ·) p p := fun p h => by
    have := (List.lt_irrefl p : ¬ p < p)
    exact this h
  have htr : ∀ p q r : List Nat, List.Lex (· < ·) p q → List.Lex (· < ·) q r →
      List.Lex (· < ·) p r := fun p q r h1 h2 => (List.lt_trans (show p < q from h1) (show q < r from h2))
  have htri : ∀ p q : List Nat, List.Lex (· < ·) p q ∨ p = q ∨ List.Lex (· < ·) q p :=
    fun p q => lt_trichotomy p q
  obtain ⟨p⟩ := p
  obtain ⟨q⟩ := q
  obtain ⟨r⟩ := r
  have e1 : ∀ a b : List Nat, ExprPath.lt ⟨a⟩ ⟨b⟩ = false ↔ ¬ List.Lex (· < ·) a b := by
    intro a b; rw [← lt_iff_lex, Bool.not_eq_true]
  simp only [e1, lt_iff_lex, C46_expr_eq, ExprPath.ne, Bool.not_eq_true', ← Bool.not_eq_true,
    ExprPath.mk.injEq, ne_eq]
  refine ⟨hir p, htr p q r, fun h1 h2 => hir p (htr _ _ _ h1 h2), ?_, trivial⟩
  constructor
  · rintro rfl; exact ⟨hir p, hir p⟩
  · rintro ⟨h1, h2⟩
    rcases htri p q with h | h | h
    · exact absurd h h1
    · exact h
    · exact absurd h h2

/-- Strict total order on the equation paths, with `operator==` and `operator!=`; the left-hand side
comes first. -/
theorem C46_equation (p q r : EqPath) :
    p.lt p = false ∧ (p.lt q = true → q.lt r = true → p.lt r = true) ∧
    (p.lt q = true → q.lt p = false) ∧
    (p.eq q = true ↔ (p.lt q = false ∧ q.lt p = false)) ∧
    (p.eq q = true ↔ p = q) ∧ (p.ne q = true ↔ p ≠ q) ∧
    (p.lt q = true ↔ (p.side = .left ∧ q.side = .right) ∨
      (p.side = q.side ∧ PathBefore p.expr.path q.expr.path)) := by
  obtain ⟨sp, p⟩ := p
  obtain ⟨sq, q⟩ := q
  obtain ⟨sr, r⟩ := r
  obtain ⟨h1, h2, h3, h4, h5⟩ := C46_expr p q r
  have h6 := C46_expr_eq p q
  have h7 := C46_expr_meaning p q
  have h8 := (C46_expr p p p).1
  cases sp <;> cases sq <;> cases sr <;>
    simp only [EqPath.lt, EqPath.eq, EqPath.ne, EqPath.mk.injEq, ne_eq] <;>
    simp [h1, h4, h5, h7] <;> simp_all

/-- A guard restores the path that it has seen at its construction, after any indices have been
appended. -/
theorem C46_guard (p : ExprPath) (l : List Nat) :
    (l.foldl ExprPath.append p).restore p.path.length = p := by
  have : l.foldl ExprPath.append p = ⟨p.path ++ l⟩ := by
    induction l generalizing p with
    | nil => simp
    | cons a l ih => rw [List.foldl_cons, ih]; simp [ExprPath.append]
  rw [this, ExprPath.restore]
  cases l with
  | nil => simp
  | cons a l => simp

/-! ### Concrete cases -/

example : ExprPath.lt ⟨[1, 2]⟩ ⟨[1, 2, 0]⟩ = true ∧ ExprPath.lt ⟨[1, 2, 0]⟩ ⟨[1, 3]⟩ = true ∧
    EqPath.lt ⟨.left, ⟨[5]⟩⟩ ⟨.right, ⟨[0]⟩⟩ = true := by decide

end Props
end Marco
