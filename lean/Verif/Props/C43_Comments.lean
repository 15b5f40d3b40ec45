import Verif.Lemmas.Lexer

/-! # C43: comments do not change the tokens; an unterminated comment is reported

Both halves are false of the code. A block comment whose body begins with `/` ends after `/*/`,
since the `*` of the opening is taken as the one of the closing. An unterminated block comment is
accepted silently. Comments whose body does not begin with `/`, and all line comments, are skipped.
-/

namespace Marco.Props
open Marco.Lex Spec

/-- First half: a comment between two tokens leaves the tokens as they are. -/
def C43_insert_full : Prop := ∀ a b c : List Char, Between a b → Comment c →
  run .normal (a ++ c ++ b) = run .normal (a ++ b)

/-- Second half: a block comment that is not closed gives an error token. -/
def C43_unterminated_full : Prop := ∀ a body : List Char, ∀ ts ts' : List Tok,
  feed '/' .normal a = some (.normal, ts) → ¬ ['*', '/'] <:+: body → nul ∉ body →
  run .normal (a ++ ['/', '*'] ++ body) = some ts' → Tok.error ∈ ts'

/-- `x /*/ z */ y` lexes as `x z * / y`. -/
theorem C43_insert_full_false : ¬ C43_insert_full := by
  intro h
  have := h "x ".toList " y".toList "/*/ z */".toList
    ⟨[.ident ['x']], by decide +kernel, by decide +kernel⟩
    (Comment.block "/ z ".toList (by decide +kernel) (by decide +kernel))
  revert this
  decide +kernel

/-- `x /* y` lexes as `x` and the end of the file. -/
theorem C43_unterminated_full_false : ¬ C43_unterminated_full := by
  intro h
  have := h "x ".toList " y".toList [.ident ['x']] [.ident ['x'], .eof] (by decide +kernel)
    (by decide +kernel) (by decide +kernel) (by decide +kernel)
  revert this
  decide +kernel

/-- Missing with respect to `C43_insert_full`: block comments whose body begins with `/`. -/
theorem C43_insert_partial (a b c : List Char) (hb : Between a b) (hc : Comment c)
    (hs : ∀ body, c ≠ ['/', '*', '/'] ++ body) :
    run .normal (a ++ c ++ b) = run .normal (a ++ b) := by
  obtain ⟨ts, h1, h2⟩ := hb
  have hskip : feed (peek b) .normal c = some (.normal, []) := by
    cases hc with
    | block body hcl hn =>
      have : ['/', '*'] ++ body ++ ['*', '/'] = '/' :: '*' :: (body ++ ['*', '/']) := by simp
      rw [this, start_block]
      refine feed_block _ ('*' :: body) ?_ (by simpa using ⟨by decide, hn⟩)
      intro hin
      rcases List.infix_cons_iff.1 hin with hp | hp
      · obtain ⟨t, ht⟩ := hp
        simp only [List.cons_append, List.nil_append, List.cons.injEq, true_and] at ht
        exact hs (t ++ ['*', '/']) (by rw [← ht]; simp)
      · exact hcl hp
    | line body hnl hn =>
      have : ['/', '/'] ++ body ++ ['\n'] = '/' :: '/' :: (body ++ ['\n']) := by simp
      rw [this, start_line]
      exact feed_line _ ('/' :: body) (by simpa using hnl)
        (by simpa using ⟨by decide, hn⟩)
  have hpk : peek (c ++ b) = '/' := by cases hc <;> rfl
  rw [List.append_assoc, run_append .normal a (c ++ b) .normal ts (by rw [hpk, h2]),
    run_append .normal c b .normal [] hskip, run_append .normal a b .normal ts h1]
  simp

/-- After white space outside of any token a comment may be inserted. -/
theorem C43_between (a b : List Char) (w : Char) (ts : List Tok) (hw : w = ' ' ∨ w = '\n' ∨ w = '\t')
    (h : feed w .normal a = some (.normal, ts)) : Between (a ++ [w]) b := by
  have hstep : ∀ x, step .normal w x = some (.normal, none) := by
    intro x
    have : isSpace w = true := by rcases hw with rfl | rfl | rfl <;> decide
    simp [step, scanNormal, this]
  refine ⟨ts, ?_, ?_⟩ <;>
  · rw [feed_append]
    have : ∀ n, after n [w] = w := fun _ => rfl
    rw [this, h, Option.bind_some, feed_cons, hstep]
    simp [feed]

/-- What the code does on an unterminated block comment: the rest of the text disappears. -/
theorem C43_unterminated_silent (a body : List Char) (ts : List Tok)
    (h : feed '/' .normal a = some (.normal, ts)) (hb : ¬ ['*', '/'] <:+: '*' :: body)
    (hn : nul ∉ body) :
    run .normal (a ++ ['/', '*'] ++ body) = some (ts ++ [.eof]) := by
  rw [List.append_assoc, run_append .normal a (['/', '*'] ++ body) .normal ts h]
  have : run .normal (['/', '*'] ++ body) = some [.eof] := by
    have hf : feed nul .normal (['/', '*'] ++ body) = some (.normal, []) := by
      have : ['/', '*'] ++ body = '/' :: '*' :: body := rfl
      rw [this, start_block]
      exact feed_unterminated ('*' :: body) hb (by simp) (by simpa using ⟨by decide, hn⟩)
    simp only [run, hf, Option.bind_eq_bind, Option.bind_some]
    decide +kernel
  rw [this]
  rfl

/-- Both comments in one text. -/
example : run .normal ("x ".toList ++ "/* a * b / c **/".toList ++ "y".toList)
    = run .normal ("x ".toList ++ "y".toList) :=
  C43_insert_partial _ _ _ (C43_between "x".toList _ ' ' [.ident ['x']] (by simp) (by decide +kernel))
    (Comment.block " a * b / c *".toList (by decide +kernel) (by decide +kernel))
    (by intro body h; simp at h)

example : run .normal ("x\n".toList ++ "// a /* b\n".toList ++ "y".toList)
    = run .normal ("x\n".toList ++ "y".toList) :=
  C43_insert_partial _ _ _
    (C43_between "x".toList _ '\n' [.ident ['x']] (by simp) (by decide +kernel))
    (Comment.line " a /* b".toList (by decide +kernel) (by decide +kernel))
    (by intro body h; simp at h)

end Marco.Props
