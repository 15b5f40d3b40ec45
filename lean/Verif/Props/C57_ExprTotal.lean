import Verif.Lemmas.ExprParserTotal

/-!
# C57: parsing any list of tokens ends with a tree or with a diagnostic

False: where an operand is missing `parsePrimary` returns a null pointer (its assertion is disabled in release
builds) and the caller dereferences it. The parser always terminates.
-/

namespace Marco.Props
open Marco Spec Parse

/-- A tree or a diagnostic. -/
def C57_full : Prop := ∀ ts : List Tok, (∃ e r, parseExpression ts = .ok e r) ∨
  parseExpression ts = .error

/-- `a * - b` is undefined behaviour. -/
theorem C57_missingOperand_false : ¬ C57_full := by
  intro h
  have h2 : parseExpression [.ident "a", .times, .minus, .ident "b"] = .ub := rfl
  rcases h [.ident "a", .times, .minus, .ident "b"] with ⟨e, r, h1⟩ | h1 <;> rw [h2] at h1 <;>
    simp at h1

/-- So is the end of the file after an operator. -/
theorem C57_endOfFile_false : ¬ C57_full := by
  intro h
  have h2 : parseExpression [.ident "a", .plus] = .ub := rfl
  rcases h [.ident "a", .plus] with ⟨e, r, h1⟩ | h1 <;> rw [h2] at h1 <;> simp at h1

/-- The parser terminates on every list of tokens: the depth of the calls, loops included, is bounded by a
linear function of the length. Missing: it may end in undefined behaviour. -/
theorem C57_terminates_partial (ts : List Tok) :
    (∃ e r, parseExpression ts = .ok e r) ∨ parseExpression ts = .error ∨ parseExpression ts = .ub := by
  cases h : parseExpression ts with
  | ok e r => exact .inl ⟨e, r, rfl⟩
  | error => exact .inr (.inl rfl)
  | ub => exact .inr (.inr rfl)
  | more => exact absurd h (parseExpression_ne ts)

/-- The outcome does not depend on the bound. -/
theorem C57_bound (k : Nat) (ts : List Tok) (h : parse k .expr ts ≠ .more) :
    parseExpression ts = parse k .expr ts := parseExpression_eq h

/-- A diagnostic, and a list for which a depth that is too small gives no outcome. -/
example : parseExpression [.lpar, .ident "a", .comma, .int 1] = .ub ∧
    parseExpression [.lcurly, .ident "a", .rpar] = .error ∧
    parse 5 .expr [.ident "a", .rpar] = .more ∧ parse 20 .expr [.ident "a", .rpar] ≠ .more :=
  ⟨rfl, rfl, rfl, by simp [show parse 20 .expr [.ident "a", .rpar] =
    .ok (.ref false [.entry "a" []]) [.rpar] from rfl]⟩

end Marco.Props
