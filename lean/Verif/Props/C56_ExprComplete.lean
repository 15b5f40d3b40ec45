import Verif.Lemmas.ExprParserComplete

/-!
# C56: every Modelica expression is parsed to its tree

False: `if … then … elseif … then … else …`, a sign `.+` or `.-`, a reference with a leading dot (the code
after `accept<Dot>` cannot be reached from an expression) and an omitted last output are rejected, and some of
them end in undefined behaviour. Every sentence of the rest of the grammar is read up to its end.
-/

namespace Marco.Props
open Marco Spec Parse

/-- A Modelica expression is read as a whole, and gives the tree it stands for. -/
def C56_full : Prop := ∀ (ts : List Tok) (e : Ast) (r : List Tok), Der modelica .expr ts e → Ends r →
  parseExpression (ts ++ r) = .ok e r

theorem ends_nil : Ends [] := by simp [Ends]

/-- A name is a term. -/
theorem der_name {d : Dialect} (s : String) : Der d .term [.ident s] (.ref false [.entry s []]) :=
  .term (.factor (.ref (.cref (.pathOne .entry))))

/-- A name is an expression. -/
theorem der_nameExpr {d : Dialect} (s : String) : Der d .expr [.ident s] (.ref false [.entry s []]) :=
  .expr (.simple (.logical (.lterm (.lfactor (.relation (.arith (der_name s)))))))

/-- `if a then b elseif c then d else e` is a syntax error for marco. -/
theorem C56_elseIf_false : ¬ C56_full := by
  intro h
  have h1 := h _ _ [] (.ifElse (der_nameExpr "a") (der_nameExpr "b")
    (.elseIf trivial (der_nameExpr "c") (der_nameExpr "d") (.else (der_nameExpr "e")))) ends_nil
  have h2 : parseExpression [.kIf, .ident "a", .kThen, .ident "b", .kElseIf, .ident "c", .kThen,
    .ident "d", .kElse, .ident "e"] = .error := rfl
  simp only [List.append_nil, List.cons_append, List.nil_append] at h1
  rw [h2] at h1
  simp at h1

/-- `.- a` is undefined behaviour. -/
theorem C56_dotSign_false : ¬ C56_full := by
  intro h
  have h1 := h _ _ [] (.expr (.simple (.logical (.lterm (.lfactor (.relation
    (.dotMinus trivial (der_name "a")))))))) ends_nil
  have h2 : parseExpression [.minusEW, .ident "a"] = .ub := rfl
  simp only [List.append_nil] at h1
  rw [h2] at h1
  simp at h1

/-- `.a` is undefined behaviour. -/
theorem C56_globalRef_false : ¬ C56_full := by
  intro h
  have h1 := h _ _ [] (.expr (.simple (.logical (.lterm (.lfactor (.relation
    (.arith (.term (.factor (.ref (.globalRef trivial (.pathOne (.entry (s := "a"))))))))))))))
    ends_nil
  have h2 : parseExpression [.dot, .ident "a"] = .ub := rfl
  simp only [List.append_nil] at h1
  rw [h2] at h1
  simp at h1

/-- `(a, )`, with two outputs of which the second one is ignored, is read as `(a)`, that is `a`. -/
theorem C56_omittedLast_false : ¬ C56_full := by
  intro h
  have h1 := h _ _ [] (.expr (.simple (.logical (.lterm (.lfactor (.relation
    (.arith (.term (.factor (.group (.tuple (.outputs (.outsLast trivial (der_nameExpr "a")))
      (by simp)))))))))))) ends_nil
  have h2 : parseExpression [.lpar, .ident "a", .comma, .rpar] =
    .ok (.ref false [.entry "a" []]) [] := rfl
  simp only [List.append_nil, List.cons_append, List.nil_append] at h1
  rw [h2] at h1
  simp at h1

/-- An expression of the common part of Modelica and of what marco reads is read up to its end, and gives the
tree it stands for. Missing: `elseif`, the signs `.+` and `.-`, global references and omitted last outputs. -/
theorem C56_exprComplete_partial (ts : List Tok) (e : Ast) (r : List Tok) (h : Der common .expr ts e)
    (hr : Ends r) : parseExpression (ts ++ r) = .ok e r := by
  refine parseExpression_complete h fun t ht => ?_
  rcases hr t ht with h1 | ⟨s, rfl⟩
  · simp only [List.mem_cons, List.not_mem_nil, or_false] at h1
    rcases h1 with h | h | h | h | h | h | h | h <;> subst h <;> decide
  · simp [rank]

/-- A sentence stands for one tree only. -/
theorem C56_unique (ts : List Tok) (e f : Ast) (h1 : Der common .expr ts e)
    (h2 : Der common .expr ts f) : e = f := by
  have e1 := C56_exprComplete_partial ts e [] h1 ends_nil
  rw [C56_exprComplete_partial ts f [] h2 ends_nil] at e1
  simpa using e1.symm

/-- `a - b - c * d`, before a closed parenthesis: there is a derivation, and the tree is `(a - b) - (c * d)`. -/
example : Der common .expr
      ([.ident "a"] ++ .minus :: [.ident "b"] ++ .minus :: ([.ident "c"] ++ .times :: [.ident "d"]))
      (.op .subtract [.op .subtract [.ref false [.entry "a" []], .ref false [.entry "b" []]],
        .op .multiply [.ref false [.entry "c" []], .ref false [.entry "d" []]]]) ∧
    Ends [.rpar] :=
  ⟨.expr (.simple (.logical (.lterm (.lfactor (.relation
    (.add (t := .minus) (by simp [addToks])
      (.add (t := .minus) (by simp [addToks]) (.arith (der_name "a")) (der_name "b"))
      (.mul (t := .times) (by simp [mulToks]) (der_name "c")
        (.factor (.ref (.cref (.pathOne .entry))))))))))), by simp [Ends]⟩

end Marco.Props
