import Verif.Lemmas.StmtParser
import Verif.Lemmas.ExprParserComplete

/-! # C123: the statements of an algorithm are read as they are written

The statements of an algorithm section, with loops and conditional statements at any depth, are read as these statements in order, and
reading stops at the keyword that ends the section. The parsers of expressions, component references, outputs and arguments are
parameters (`Reads`); `C123_reads` gives the parser of expressions of marco for expressions and for single arguments. -/

namespace Marco.Props
open Marco.StmtParse Marco.Spec.StmtParse
open Marco.Parse (Tok Res)
open Marco.EqParse (isA isOne expect tEnd tLoop tWhen tSemicolon tInitial tEquation isA_same isA_ne expect_same expect_ne isOne_mem isOne_not)
open Marco.Spec.EqParse (stop showIndices)

/-- The claim, for all statements, and also for sections before `initial equation`. -/
def C123_full : Prop :=
  ∀ (D X O A : Type) (P : Parsers D X O A) (F : Forms D X O A), Reads P F →
    ∀ (ss : Stmts D X O A) (t : Tok) (r : List Tok), Stmts.Ok False ss → Ends False t →
      parseAlgorithmSection P (showSection F ss ++ t :: r) = .ok ss (t :: r)

section
variable {D X O A : Type} {P : Parsers D X O A} {F : Forms D X O A}

/-- The claim, for all sections without `when` and without calls without arguments as statements, that are not before `initial`. -/
theorem C123_section_partial (hP : Reads P F) (ss : Stmts D X O A) (t : Tok) (r : List Tok) (hok : Stmts.Ok True ss) (ht : Ends True t) :
    parseAlgorithmSection P (showSection F ss ++ t :: r) = .ok ss (t :: r) := by
  have h := pStmts_show hP ss hok (2 * (showSection F ss ++ t :: r).length + 1) sectionEnds t r
    (fun s hs => List.mem_append_right _ hs) (by simpa [Ends, sectionEnds] using ht) (by simp [showSection]; omega)
  have he : showSection F ss ++ t :: r = tAlgorithm :: (showStmts F ss ++ t :: r) := by simp [showSection]
  simp only [parseAlgorithmSection]
  rw [he] at h ⊢
  simp only [expect_same, EqParse.bind, h]

/-- Two such sections that are written in the same way are the same. -/
theorem C123_injective (hP : Reads P F) (ss ss' : Stmts D X O A) (t t' : Tok) (r r' : List Tok) (hok : Stmts.Ok True ss)
    (hok' : Stmts.Ok True ss') (ht : Ends True t) (ht' : Ends True t') (he : showSection F ss ++ t :: r = showSection F ss' ++ t' :: r') :
    ss = ss' ∧ t :: r = t' :: r' := by
  have h1 := C123_section_partial hP ss t r hok ht
  have h2 := C123_section_partial hP ss' t' r' hok' ht'
  rw [he, h2] at h1
  injection h1 with h3 h4
  exact ⟨h3.symm, h4.symm⟩

/-- Each `when` statement is refused: `loop` is expected after the condition. -/
theorem C123_when (hP : Reads P F) (c : X) (b : Stmts D X O A) (f : Nat) (r : List Tok) :
    pStmt P (f + 1) (showStmt F (.when c b) ++ r) = .error := by
  have he : showStmt F (.when c b) ++ r = tWhen :: (F.expr c ++ .kThen :: (showStmts F b ++ tEnd :: tWhen :: r)) := by simp [showStmt]
  have h1 := hP.expr c .kThen (showStmts F b ++ tEnd :: tWhen :: r) rfl
  rw [he, pStmt]
  simp [isA_ne, isA_same, h1, EqParse.bind, expect_ne]

/-- Instead, `when … loop … end when` is accepted. -/
theorem C123_when_loop (hP : Reads P F) (c : X) (b : Stmts D X O A) (hb : Stmts.Ok True b) (f : Nat) (r : List Tok)
    (hf : 2 * (showStmts F b).length + 1 ≤ f) :
    pStmt P (f + 1) (tWhen :: (F.expr c ++ tLoop :: (showStmts F b ++ tEnd :: tWhen :: r))) = .ok (.when c b) r := by
  have h1 := hP.expr c tLoop (showStmts F b ++ tEnd :: tWhen :: r) (by simp [stop])
  have h2 := pStmts_show hP b hb f [tEnd] tEnd (tWhen :: r) stops_end (by simp) hf
  rw [pStmt]
  simp [isA_ne, isA_same, h1, EqParse.bind, expect_same, h2]

/-- The statement `f()`: the parser of arguments is called at the closing parenthesis, and what it does there is the outcome. -/
theorem C123_empty_call (hP : Reads P F) (d : D) (f : Nat) (r : List Tok) (ha : P.args (.rpar :: r) = .ub) :
    pStmt P (f + 1) (showStmt F (.call d none) ++ r) = .ub := by
  have he : showStmt F (.call d none) ++ r = F.ref d ++ .lpar :: .rpar :: r := by simp [showStmt, showArgs]
  have h1 := hP.ref d .lpar (.rpar :: r) (.inl rfl)
  rw [he, pStmt_ref hP, h1]
  simp [EqParse.bind, isA_same, ha]

/-- The statements before `initial`. -/
theorem C123_initial_list (hP : Reads P F) (r : List Tok) (hi : P.ref (tInitial :: r) = .error) : ∀ (ss : Stmts D X O A),
    Stmts.Ok True ss → ∀ f, 2 * (showStmts F ss).length + 2 ≤ f → pStmts P f sectionEnds (showStmts F ss ++ tInitial :: r) = .error
  | .nil, _, f, hf => by
    obtain ⟨f, rfl⟩ : ∃ g, f = g + 2 := ⟨f - 2, by omega⟩
    have hn : isOne sectionEnds (tInitial :: r) = false := isOne_not (by simp [sectionEnds]) _
    rw [showStmts, List.nil_append, pStmts, hn, pStmt]
    simp [isA_ne, hi, EqParse.bind]
  | .cons s ss, hok, f, hf => by
    simp only [Stmts.Ok] at hok
    cases f with
    | zero => omega
    | succ f =>
      have hl : (showStmts F (.cons s ss)).length = (showStmt F s).length + (showStmts F ss).length + 1 := by simp [showStmts]; omega
      rw [hl] at hf
      have h1 := pStmt_show hP s hok.1 f (showStmts F ss ++ tInitial :: r) (by omega)
      have h2 := C123_initial_list hP r hi ss hok.2 f (by omega)
      have he : showStmts F (.cons s ss) ++ tInitial :: r = showStmt F s ++ tSemicolon :: (showStmts F ss ++ tInitial :: r) := by
        simp [showStmts]
      obtain ⟨u, us, hu, hu'⟩ := showStmt_start hP s
      have hn : isOne sectionEnds (showStmt F s ++ tSemicolon :: (showStmts F ss ++ tInitial :: r)) = false := by
        rw [hu, List.cons_append]
        exact isOne_not (fun hc => hu' (List.mem_append_right _ hc)) _
      rw [he, pStmts, hn]
      simp only [Bool.false_eq_true, if_false, h1, EqParse.bind, expect_same, h2]

/-- A section before `initial equation` or `initial algorithm` is refused: `initial` is taken for the beginning of a statement. -/
theorem C123_initial (hP : Reads P F) (ss : Stmts D X O A) (hok : Stmts.Ok True ss) (r : List Tok) (hi : P.ref (tInitial :: r) = .error) :
    parseAlgorithmSection P (showSection F ss ++ tInitial :: r) = .error := by
  have h := C123_initial_list hP r hi ss hok (2 * (showSection F ss ++ tInitial :: r).length + 1) (by simp [showSection]; omega)
  have he : showSection F ss ++ tInitial :: r = tAlgorithm :: (showStmts F ss ++ tInitial :: r) := by simp [showSection]
  simp only [parseAlgorithmSection]
  rw [he] at h ⊢
  simp only [expect_same, EqParse.bind, h]

end

/-- The trees of expressions of the common grammar. -/
def C123_Tree : Type := { a : Parse.Ast // ∃ ts, Spec.Der Spec.common .expr ts a }

open Classical in
/-- The parser of expressions of marco, with the trees of the common grammar. -/
noncomputable def C123_expr (ts : List Tok) : Res C123_Tree :=
  match Parse.parseExpression ts with
  | .ok a r => if h : ∃ ts, Spec.Der Spec.common .expr ts a then .ok ⟨a, h⟩ r else .error
  | .error => .error
  | .ub => .ub
  | .more => .more

/-- Names. -/
def C123_name : List Tok → Res String
  | .ident s :: r => .ok s r
  | _ => .error

/-- The parsers: of names for references and outputs, of expressions of marco for expressions and single arguments. -/
noncomputable def C123_parsers : Parsers String C123_Tree String C123_Tree := ⟨C123_expr, C123_name, C123_name, C123_expr⟩

/-- The written forms. -/
noncomputable def C123_forms : Forms String C123_Tree String C123_Tree :=
  ⟨fun a => a.2.choose, fun s => [.ident s], fun s => [.ident s], fun a => a.2.choose⟩

theorem C123_rpar (r : List Tok) : Parse.parseExpression (.rpar :: r) = .ub := by
  have h : Parse.parse 40 .expr (.rpar :: r) = .ub := rfl
  rw [Parse.parseExpression_eq (k := 40) (by rw [h]; simp), h]

theorem C123_expr_reads (a : C123_Tree) (t : Tok) (r : List Tok) (ht : stop t = true ∨ t = .rpar) :
    C123_expr (C123_forms.expr a ++ t :: r) = .ok a (t :: r) := by
  have h : Parse.parseExpression (a.2.choose ++ t :: r) = .ok a.1 (t :: r) := Parse.parseExpression_complete a.2.choose_spec (by
    rw [Parse.fol_cons]
    rcases ht with ht | rfl
    · cases t <;> simp_all [stop, Parse.rank]
    · simp [Parse.rank])
  simp only [C123_expr, C123_forms, h, a.2, dif_pos]
  rfl

theorem C123_reads : Reads C123_parsers C123_forms where
  expr e t r ht := C123_expr_reads e t r (.inl ht)
  ref d t r _ := rfl
  outs o r := rfl
  args a r := C123_expr_reads a .rpar r (.inr rfl)
  head d := ⟨_, _, rfl, by simp [keywords]⟩
  argsHead a := by
    have h : ∀ r, C123_expr (.rpar :: r) = .ub := by intro r; simp only [C123_expr, C123_rpar]
    have h1 := C123_expr_reads a .rpar [] (.inr rfl)
    change ∃ t r, C123_forms.expr a = t :: r ∧ t ≠ .rpar
    generalize C123_forms.expr a = l at h1
    cases l with
    | nil => rw [List.nil_append, h] at h1; cases h1
    | cons t us =>
      refine ⟨t, us, rfl, ?_⟩
      rintro rfl
      rw [List.cons_append, h] at h1
      cases h1

/-- The claim with the parser of expressions of marco. -/
theorem C123_marco (ss : Stmts String C123_Tree String C123_Tree) (t : Tok) (r : List Tok) (hok : Stmts.Ok True ss) (ht : Ends True t) :
    parseAlgorithmSection C123_parsers (showSection C123_forms ss ++ t :: r) = .ok ss (t :: r) :=
  C123_section_partial C123_reads ss t r hok ht

/-- `f()` as a statement, with the parser of expressions of marco: a null pointer is used. -/
theorem C123_marco_empty_call (s : String) (f : Nat) (r : List Tok) :
    pStmt C123_parsers (f + 1) (.ident s :: .lpar :: .rpar :: r) = .ub :=
  C123_empty_call C123_reads s f r (by simp only [C123_parsers, C123_expr, C123_rpar])

namespace C123_Sample

/-- `n`. -/
def name : C123_Tree :=
  ⟨.ref false [.entry "n" []], [.ident "n"],
    .expr (.simple (.logical (.lterm (.lfactor (.relation (.arith (.term (.factor (.ref (.cref (.pathOne .entry)))))))))))⟩

/-- `x := n; for i in n, j loop if n then f(n); elseif n then else break; end if; while n loop (y) := f(); return; end while; end for;` -/
def stmts : Stmts String C123_Tree String C123_Tree :=
  .cons (.assign "x" name) (.cons (.loop [("i", some name), ("j", none)] (.cons
    (.cond name (.cons (.call "f" (some name)) .nil) (.cons name .nil .nil) (.some (.cons .brk .nil)))
      (.cons (.while name (.cons (.assignCall "y" "f" none) (.cons .ret .nil))) .nil))) .nil)

example : parseAlgorithmSection C123_parsers (showSection C123_forms stmts ++ [tEquation]) = .ok stmts [tEquation] :=
  C123_marco stmts tEquation [] (by simp [stmts, Stmts.Ok, Stmt.Ok, Branches.Ok, Else.Ok]) (by simp [Ends])

example : parseAlgorithmSection C123_parsers (showSection C123_forms stmts ++ [tInitial, tEquation]) = .error :=
  C123_initial C123_reads stmts (by simp [stmts, Stmts.Ok, Stmt.Ok, Branches.Ok, Else.Ok]) [tEquation] rfl

end C123_Sample

open C123_Sample in
/-- The claim is false: a section before `initial equation` is refused. -/
theorem C123_full_false : ¬ C123_full := by
  intro h
  have h1 := h _ _ _ _ _ _ C123_reads (.cons .brk .nil) tInitial [tEquation] (by simp [Stmts.Ok, Stmt.Ok]) (by simp [Ends])
  rw [C123_initial C123_reads (.cons .brk .nil) (by simp [Stmts.Ok, Stmt.Ok]) [tEquation] rfl] at h1
  cases h1

end Marco.Props
