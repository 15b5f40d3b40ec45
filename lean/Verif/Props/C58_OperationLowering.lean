import Verif.Lemmas.OperationLowerer

/-!
# C58: an operation keeps its value when it is lowered

False: the parser makes one node of a chain of `and` (or of `or`), and the lowering takes the first two operands
of it: `a and b and c` becomes `a and b`. Every expression without such chains keeps its value.
-/

namespace Marco.Props
open Marco Spec Parse

/-- An expression that has been accepted is lowered to an SSA value with the value of the expression, for every
interpretation of the operators and of the names. -/
def C58_full : Prop := ∀ (ts : List Tok) (e : Ast) (r : List Tok), parseExpression ts = .ok e r →
  ∃ x, lower e = .ok x ∧
    ∀ (V : Type) (A : Alg V) (leaf : Ast → V), irValue A leaf x = value A leaf e

/-- Booleans, with the logical operators; the other ones do not matter here. -/
def boolAlg : Alg Bool where
  neg := id
  add := xor
  addEW := xor
  sub := xor
  subEW := xor
  mul := and
  mulEW := and
  div := and
  divEW := and
  pow := and
  powEW := and
  gt x y := x && !y
  ge x y := x || !y
  eq x y := x == y
  ne x y := x != y
  le x y := !x || y
  lt x y := !x && y
  and := and
  or := or
  not := not
  ite c x y := if c then x else y
  range x _ _ := x
  index n := n != 0
  view x _ := x
  all := true

/-- `a and b and c` is lowered to `a and b`: it is true if `a` and `b` are true and `c` is false. -/
theorem C58_chain_false : ¬ C58_full := by
  intro h
  obtain ⟨x, h1, h2⟩ := h [.ident "a", .kAnd, .ident "b", .kAnd, .ident "c"]
    (.op .land [.ref false [.entry "a" []], .ref false [.entry "b" []], .ref false [.entry "c" []]])
    [] rfl
  have h3 := h2 Bool boolAlg fun
    | .ref _ [.entry s _] => s != "c"
    | _ => true
  simp only [lower, lowerArgs, lowerOp, Low.ok.injEq] at h1
  subst h1
  simp [irValue, irValues, irApply, value, values, apply, boolAlg] at h3

/-- An expression that has been accepted has a value. -/
theorem C58_value (ts : List Tok) (e : Ast) (r : List Tok) (h : parseExpression ts = .ok e r)
    {V : Type} (A : Alg V) (leaf : Ast → V) : ∃ v, value A leaf e = some v := by
  obtain ⟨us, _, h2⟩ := parse_sound _ .expr ts e r h
  exact der_value A leaf h2

/-- An expression that has been accepted is lowered without undefined behaviour, and the result has the value of
the expression: operators, order of the operands, default step of the ranges, subscripts shifted to 0. Missing:
chains of three operands or more of `and` or of `or`, from which operands are lost. -/
theorem C58_operationLowering_partial (ts : List Tok) (e : Ast) (r : List Tok)
    (h : parseExpression ts = .ok e r) (hc : noChain e = true) :
    ∃ x, lower e = .ok x ∧
      ∀ (V : Type) (A : Alg V) (leaf : Ast → V), irValue A leaf x = value A leaf e := by
  obtain ⟨v, hv⟩ := C58_value ts e r h boolAlg fun _ => true
  obtain ⟨x, h1, -⟩ := lower_value _ _ e v hv hc
  refine ⟨x, h1, fun V A leaf => ?_⟩
  obtain ⟨v, hv⟩ := C58_value ts e r h A leaf
  obtain ⟨y, h2, h3⟩ := lower_value _ _ e v hv hc
  rw [h1, Low.ok.injEq] at h2
  rw [h2, h3, hv]

/-- `if a > 1 and b then 1 : 2 : n else (x)[i, :]` meets the hypotheses. -/
example : ∃ e, parseExpression [.kIf, .ident "a", .gt, .int 1, .kAnd, .ident "b", .kThen, .int 1,
      .colon, .int 2, .colon, .ident "n", .kElse, .lpar, .ident "x", .rpar, .lsquare, .ident "i", .comma,
      .colon, .rsquare] = .ok e [] ∧ noChain e = true ∧
    lower e = .ok (.op .selectOp [
      .op .andOp [.op .gtOp [.leaf (.ref false [.entry "a" []]), .leaf (.int 1)],
        .leaf (.ref false [.entry "b" []])],
      .op .rangeOp [.leaf (.int 1), .leaf (.ref false [.entry "n" []]), .leaf (.int 2)],
      .op .tensorViewOp [.leaf (.ref false [.entry "x" []]),
        .op .addOp [.leaf (.ref false [.entry "i" []]), .index (-1)], .op .unboundedRangeOp []]]) :=
  ⟨_, rfl, rfl, rfl⟩

end Marco.Props
