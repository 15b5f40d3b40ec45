import Verif.Model.Lexer

/-! # Comments and literals of Modelica -/

namespace Marco.Spec
open Marco.Lex

/-- A comment in a text (without NUL): `/* ... */` where `*/` occurs only at the end, or `// ...` up
to the end of the line. -/
inductive Comment : List Char → Prop
  | block (body : List Char) : ¬ ['*', '/'] <:+: body → nul ∉ body →
      Comment (['/', '*'] ++ body ++ ['*', '/'])
  | line (body : List Char) : '\n' ∉ body → nul ∉ body → Comment (['/', '/'] ++ body ++ ['\n'])

/-- The position between `a` and `b` is between two tokens, also if what follows begins with `/`:
the lexer is not within a token after `a`, and `a` gives the same tokens in both cases. -/
def Between (a b : List Char) : Prop :=
  ∃ ts, feed (peek b) .normal a = some (.normal, ts) ∧ feed '/' .normal a = some (.normal, ts)

/-- The number denoted by a string of decimal digits. -/
def numVal : List Char → Nat
  | [] => 0
  | c :: cs => (c.toNat - '0'.toNat) * 10 ^ cs.length + numVal cs

/-- A non-empty string of decimal digits. -/
def Digits (ds : List Char) : Prop := ds ≠ [] ∧ ∀ c ∈ ds, '0' ≤ c ∧ c ≤ '9'

/-- An exponent: `e` or `E`, optional sign, digits; with its value. -/
inductive Exponent : List Char → ℤ → Prop
  | plain (e : Char) (ds : List Char) : e = 'e' ∨ e = 'E' → Digits ds →
      Exponent (e :: ds) (numVal ds)
  | pos (e : Char) (ds : List Char) : e = 'e' ∨ e = 'E' → Digits ds →
      Exponent (e :: '+' :: ds) (numVal ds)
  | neg (e : Char) (ds : List Char) : e = 'e' ∨ e = 'E' → Digits ds →
      Exponent (e :: '-' :: ds) (-(numVal ds : ℤ))

/-- The text does not begin with a digit. -/
def NoDigit (r : List Char) : Prop := ∀ c cs, r = c :: cs → ¬ ('0' ≤ c ∧ c ≤ '9')

/-- The text does not begin with an exponent. -/
def NoExponent (r : List Char) : Prop := ∀ e k cs, Exponent e k → r ≠ e ++ cs

end Marco.Spec
