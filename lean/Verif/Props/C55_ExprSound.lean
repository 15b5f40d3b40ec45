import Verif.Lemmas.ExprParser
import Verif.Lemmas.Grammar

/-!
# C55: an accepted expression is a Modelica expression, with the tree of the grammar

False: marco accepts chains of powers (`a ^ b ^ c`), which Modelica rejects because the reader may take them
in two ways, and lists of outputs without commas (`(a b)`). What is accepted derives from the grammar of
Modelica with these constructs added, and the tree is the one of the grammar.
-/

namespace Marco.Props
open Marco Spec Parse

/-- What has been read is a Modelica expression that stands for the tree. -/
def C55_full : Prop := ∀ (ts : List Tok) (e : Ast) (r : List Tok), parseExpression ts = .ok e r →
  ∃ us, ts = us ++ r ∧ Der modelica .expr us e

/-- `a ^ b ^ c` is accepted as `(a ^ b) ^ c`. -/
theorem C55_powerChain_false : ¬ C55_full := by
  intro h
  obtain ⟨us, h1, h2⟩ := h [.ident "a", .pow, .ident "b", .pow, .ident "c"]
    (.op .powerOf [.op .powerOf [.ref false [.entry "a" []], .ref false [.entry "b" []]],
      .ref false [.entry "c" []]]) [] rfl
  rw [List.append_nil] at h1
  subst h1
  have := der_pows h2
  simp [pows, marks, excess] at this

/-- `(a b)` is accepted as `(a, b)`. -/
theorem C55_looseOutputs_false : ¬ C55_full := by
  intro h
  obtain ⟨us, h1, h2⟩ := h [.lpar, .ident "a", .ident "b", .rpar]
    (.tuple [.ref false [.entry "a" []], .ref false [.entry "b" []]]) [] rfl
  rw [List.append_nil] at h1
  subst h1
  have := (der_apart h2).1
  simp [List.isChain_cons, NamesApart] at this

/-- What has been read derives from the grammar with the constructs that marco adds, and the tree is the one of
the grammar: precedence and grouping of the operators, order of the operands, names, subscripts and arguments.
Missing: chains of powers, lists of outputs without commas and subscripts of calls and of arrays are not
Modelica. -/
theorem C55_exprSound_partial (ts : List Tok) (e : Ast) (r : List Tok)
    (h : parseExpression ts = .ok e r) : ∃ us, ts = us ++ r ∧ Der marco .expr us e :=
  parse_sound _ .expr ts e r h

/-- `- a * b + c[i, :] > f(x, n = 2) and not d`, followed by `;`. -/
example : parseExpression [.minus, .ident "a", .times, .ident "b", .plus, .ident "c", .lsquare,
      .ident "i", .comma, .colon, .rsquare, .gt, .ident "f", .lpar, .ident "x", .comma, .ident "n",
      .assign, .int 2, .rpar, .kAnd, .kNot, .ident "d", .other ";"] =
    .ok (.op .land [
      .op .greater [
        .op .add [
          .op .negate [.op .multiply [.ref false [.entry "a" []], .ref false [.entry "b" []]]],
          .ref false [.entry "c" [.sub (.ref false [.entry "i" []]), .subAll]]],
        .call (.ref false [.entry "f" []])
          [.argExpr (.ref false [.entry "x" []]), .argNamed "n" (.argExpr (.int 2))]],
      .op .lnot [.ref false [.entry "d" []]]]) [.other ";"] := rfl

end Marco.Props
