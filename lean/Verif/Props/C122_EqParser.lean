import Verif.Lemmas.EqParser
import Verif.Lemmas.ExprParserComplete

/-! # C122: the equations of a section are read as they are written

The equations of a section, with loops and conditional equations at any depth, are read as these equations in order, and reading stops at
the keyword that ends the section. The parser of expressions is a parameter (`Reads`); `C122_reads` gives the one of marco, for equations
with a variable or a derivative on the left. -/

namespace Marco.Props
open Marco.EqParse Marco.Spec.EqParse
open Marco.Parse (Tok Res)

/-- The claim, for all equations. -/
def C122_full : Prop :=
  ∀ (L X Y : Type) (E : List Tok → Res Y) (prL : L → List Tok) (valL : L → Y) (prX : X → List Tok) (valX : X → Y),
    Reads E prL valL prX valX → ∀ (init : Bool) (es : Sources L X) (t : Tok) (r : List Tok), Eqns.Ok False es → Ends t →
      parseEquationSection E (showSection prL prX init es ++ t :: r) = .ok (init, mapEqns valL (fun z => valX z.1) valX es) (t :: r)

section
variable {L X Y : Type} {E : List Tok → Res Y} {prL : L → List Tok} {valL : L → Y} {prX : X → List Tok} {valX : X → Y}

/-- The claim, for all sections without `when`. -/
theorem C122_section_partial (hE : Reads E prL valL prX valX) (init : Bool) (es : Sources L X) (t : Tok) (r : List Tok)
    (hok : Eqns.Ok True es) (ht : Ends t) :
    parseEquationSection E (showSection prL prX init es ++ t :: r) = .ok (init, mapEqns valL (fun z => valX z.1) valX es) (t :: r) :=
  section_show hE init es hok t r ht

/-- Each `when` equation is refused, wherever it is: `end if` is expected at its end. -/
theorem C122_when (hE : Reads E prL valL prX valX) (c : X) (b : Sources L X) (bs : SourceBranches L X) (els : Sources L X)
    (hb : Eqns.Ok True b) (hbs : Branches.Ok True bs) (hels : Eqns.Ok True els) (f : Nat) (r : List Tok)
    (hf : 2 * (showEqn prL prX (.cond true c b bs els)).length ≤ f) :
    pEq E f (showEqn prL prX (.cond true c b bs els) ++ r) = .error := by
  cases f with
  | zero => simp [showEqn] at hf
  | succ f =>
    have h := pCond_show hE true c b bs els .kIf (pEqs_show hE b hb) (pBranches_show hE true bs hbs) (pEqs_show hE els hels) f r (by omega)
    have he : showEqn prL prX (.cond true c b bs els) ++ r = tWhen :: ((showEqn prL prX (.cond true c b bs els)).tail ++ r) := by
      simp [showEqn, keyword]
    rw [he, pEq, isA_ne (by simp), isA_ne (by simp), isA_same]
    simpa [keyword, elseKeyword] using h

/-- Instead, `when … end if` is accepted. -/
theorem C122_when_if (hE : Reads E prL valL prX valX) (c : X) (r : List Tok) (f : Nat) :
    pEq E (f + 3) (tWhen :: (prX c ++ .kThen :: tEnd :: .kIf :: r)) = .ok (.cond true (valX c) .nil .nil .nil) r := by
  have h := hE.right c .kThen (tEnd :: .kIf :: r) rfl
  simp [pEq, isA_ne, isA_same, pCond, h, EqParse.bind, expect_same, pEqs, isOne, pBranches]

/-- Two sections without `when` that are written in the same way have the same equations. -/
theorem C122_injective (hE : Reads E prL valL prX valX) (init init' : Bool) (es es' : Sources L X) (t t' : Tok) (r r' : List Tok)
    (hok : Eqns.Ok True es) (hok' : Eqns.Ok True es') (ht : Ends t) (ht' : Ends t')
    (he : showSection prL prX init es ++ t :: r = showSection prL prX init' es' ++ t' :: r') :
    init = init' ∧ mapEqns valL (fun z => valX z.1) valX es = mapEqns valL (fun z => valX z.1) valX es' ∧ t :: r = t' :: r' := by
  have h1 := C122_section_partial hE init es t r hok ht
  have h2 := C122_section_partial hE init' es' t' r' hok' ht'
  rw [he, h2] at h1
  injection h1 with h3 h4
  injection h3 with h5 h6
  exact ⟨h5.symm, h6.symm, h4.symm⟩

end

/-- A written expression: tokens that derive from the common grammar, with the tree that they stand for. -/
def C122_Expr : Type := { p : List Tok × Parse.Ast // Spec.Der Spec.common .expr p.1 p.2 }

/-- The left sides `x` and `der(x)`. -/
def C122_left : Bool × String → List Tok
  | (false, s) => [.ident s]
  | (true, s) => [.kDer, .lpar, .ident s, .rpar]

/-- Their trees. -/
def C122_leftTree : Bool × String → Parse.Ast
  | (false, s) => .ref false [.entry s []]
  | (true, s) => .call (.ref false [.entry "der" []]) [.argExpr (.ref false [.entry s []])]

/-- The parser of expressions of marco. -/
theorem C122_reads : Reads Parse.parseExpression C122_left C122_leftTree (fun e : C122_Expr => e.1.1) fun e => e.1.2 where
  left e r := by
    obtain ⟨b, s⟩ := e
    cases b with
    | false =>
      have h : Parse.parse 40 .expr (.ident s :: .assign :: r) = .ok (.ref false [.entry s []]) (.assign :: r) := rfl
      simp only [C122_left, List.cons_append, List.nil_append, C122_leftTree]
      rw [Parse.parseExpression_eq (k := 40) (by rw [h]; simp), h]
    | true =>
      have h : Parse.parse 40 .expr (.kDer :: .lpar :: .ident s :: .rpar :: .assign :: r) =
        .ok (.call (.ref false [.entry "der" []]) [.argExpr (.ref false [.entry s []])]) (.assign :: r) := rfl
      simp only [C122_left, List.cons_append, List.nil_append, C122_leftTree]
      rw [Parse.parseExpression_eq (k := 40) (by rw [h]; simp), h]
  right e t r ht := Parse.parseExpression_complete e.2 (by
    rw [Parse.fol_cons]
    cases t <;> simp_all [stop, Parse.rank])
  head e := by
    obtain ⟨b, s⟩ := e
    cases b <;> exact ⟨_, _, rfl, by simp [keywords]⟩

/-- The claim with the parser of expressions of marco. -/
theorem C122_marco (init : Bool) (es : Sources (Bool × String) C122_Expr) (t : Tok) (r : List Tok) (hok : Eqns.Ok True es) (ht : Ends t) :
    parseEquationSection Parse.parseExpression (showSection C122_left (fun e => e.1.1) init es ++ t :: r) =
      .ok (init, mapEqns C122_leftTree (fun z => z.1.1.2) (fun e => e.1.2) es) (t :: r) :=
  C122_section_partial C122_reads init es t r hok ht

namespace C122_Sample

/-- `n`. -/
def name : C122_Expr :=
  ⟨([.ident "n"], .ref false [.entry "n" []]),
    .expr (.simple (.logical (.lterm (.lfactor (.relation (.arith (.term (.factor (.ref (.cref (.pathOne .entry))))))))))) ⟩

/-- `der(x) = n "c"; for i in n, j loop if n then x = n; elseif n then else x = n; x = n; end if; end for;` -/
def eqs : Sources (Bool × String) C122_Expr :=
  .cons (.equal (true, "x") (name, some "c")) (.cons (.loop [("i", some name), ("j", none)] (.cons
    (.cond false name (.cons (.equal (false, "x") (name, none)) .nil) (.cons name .nil .nil)
      (.cons (.equal (false, "x") (name, none)) (.cons (.equal (false, "x") (name, none)) .nil))) .nil)) .nil)

example : Eqns.Ok True eqs ∧ Ends tEnd := by simp [eqs, Eqns.Ok, Eqn.Ok, Branches.Ok, Ends]

example : parseEquationSection Parse.parseExpression (showSection C122_left (fun e => e.1.1) true eqs ++ [tEnd]) =
    .ok (true, mapEqns C122_leftTree (fun z => z.1.1.2) (fun e => e.1.2) eqs) [tEnd] :=
  C122_marco true eqs tEnd [] (by simp [eqs, Eqns.Ok, Eqn.Ok, Branches.Ok]) (by simp [Ends])

/-- `when n then x = n; end when;` -/
def whenEq : Sources (Bool × String) C122_Expr := .cons (.cond true name (.cons (.equal (false, "x") (name, none)) .nil) .nil .nil) .nil

end C122_Sample

open C122_Sample in
/-- The claim is false: `when n then x = n; end when;` is refused. -/
theorem C122_full_false : ¬ C122_full := by
  intro h
  have h1 := h _ _ _ _ _ _ _ _ C122_reads false whenEq tEnd [] (by simp [whenEq, Eqns.Ok, Eqn.Ok, Branches.Ok]) (by simp [Ends])
  have h2 : parseEquationSection Parse.parseExpression (showSection C122_left (fun e : C122_Expr => e.1.1) false whenEq ++ [tEnd]) = .error := rfl
  rw [h2] at h1
  cases h1

end Marco.Props
