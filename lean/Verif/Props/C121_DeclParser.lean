import Verif.Lemmas.DeclParser
import Verif.Lemmas.ExprParserComplete

/-! # C121: the declarations of a class are read as they are written

The declarations of a section, written with prefixes, type, dimensions, name, modification, comment and annotation, are read as the members
with these names, types, dimensions, prefixes and modifications, in order, and reading stops at the keyword that ends the section.
The parser of expressions is a parameter (`Reads`); with the one of marco the claim holds for the expressions of C56 (`C121_marco`). -/

namespace Marco.Props
open Marco.DeclParse Marco.Spec.DeclParse

/-- The claim, for all declarations that have a written form. -/
def C121_full : Prop :=
  ∀ (X Y : Type) (E : List Tok → Res Y) (pr : X → List Tok) (val : X → Y), Reads E pr val →
    ∀ (pub : Bool) (ds : List (Decl X)) (k : Nat) (r : List Tok), (∀ d ∈ ds, d.Ok pr) →
      parseElementList E pub (showDecls pr ds ++ .kSection k :: r) = .ok (ds.map fun d => d.member val pub) (.kSection k :: r)

/-- The claim, for all sections in which no dimension is an expression that begins with a number. -/
theorem C121_decls_partial {X Y : Type} {E : List Tok → Res Y} {pr : X → List Tok} {val : X → Y} (hE : Reads E pr val)
    (pub : Bool) (ds : List (Decl X)) (k : Nat) (r : List Tok) (h : ∀ d ∈ ds, d.Ok pr) (hn : ∀ d ∈ ds, ¬ d.NumberFirst pr) :
    parseElementList E pub (showDecls pr ds ++ .kSection k :: r) = .ok (ds.map fun d => d.member val pub) (.kSection k :: r) :=
  parseElementList_show hE pub k r ds fun d hd => ⟨(h d hd).1, fun e he n hc => hn d hd ⟨e, n, he, hc⟩⟩

/-- Modifications are read as they are written, at any depth. -/
theorem C121_modification {X Y : Type} {E : List Tok → Res Y} {pr : X → List Tok} {val : X → Y} (hE : Reads E pr val) (m : Modif X)
    (t : Tok) (r : List Tok) (ht : stop t = true) :
    ∃ f, ∀ g, f ≤ g → pMod E g (showMod pr m ++ t :: r) = .ok (mapMod val m) (t :: r) :=
  ⟨_, fun g hg => pMod_show hE m g t r ht hg⟩

/-- In a modification `:=` is read as `=`. -/
theorem C121_assign {X Y : Type} {E : List Tok → Res Y} {pr : X → List Tok} {val : X → Y} (hE : Reads E pr val) (n : String) (e : X) (t : Tok)
    (r : List Tok) (ht : stop t = true) (f : Nat) :
    pArg E (f + 2) (.ident n :: .assign :: (pr e ++ t :: r)) = .ok (.withMod false false n (.value (val e))) (t :: r) := by
  simp [pArg, pMod, accept, DeclParse.ident, startsMod, Res.bind, hE.read e t r ht]

/-- Two sections that are read as the same members are the same but for `final`, comments and annotations. -/
theorem C121_injective {X Y : Type} {E : List Tok → Res Y} {pr : X → List Tok} {val : X → Y} (hE : Reads E pr val)
    (ds ds' : List (Decl X)) (k k' : Nat) (r r' : List Tok) (h : ∀ d ∈ ds, d.Ok pr) (hn : ∀ d ∈ ds, ¬ d.NumberFirst pr)
    (h' : ∀ d ∈ ds', d.Ok pr) (hn' : ∀ d ∈ ds', ¬ d.NumberFirst pr)
    (he : showDecls pr ds ++ .kSection k :: r = showDecls pr ds' ++ .kSection k' :: r') :
    ds.map (fun d => d.member val true) = ds'.map (fun d => d.member val true) ∧ k = k' ∧ r = r' := by
  have h1 := C121_decls_partial hE true ds k r h hn
  have h2 := C121_decls_partial hE true ds' k' r' h' hn'
  rw [he, h2] at h1
  injection h1 with h3 h4
  injection h4 with h5 h6
  injection h5 with h7
  exact ⟨h3.symm, h7.symm, h6.symm⟩

/-- A dimension that begins with a number and goes on is refused, whatever the parser of expressions does. -/
theorem C121_number_first {X : Type} (E : List Tok → Res X) (pub : Bool) (f n : Nat) (u : Tok) (r : List Tok)
    (h1 : u ≠ .comma) (h2 : u ≠ .rsquare) :
    pElement E (f + 1) pub (.ident "Real" :: .lsquare :: .int n :: u :: r) = .error := by
  simp [pElement, pPrefix, pType, ident, Res.bind, accept, pDims, pDim, expect, h1, h2]

/-- `redeclare` in a modification reaches `llvm_unreachable`. -/
theorem C121_redeclare {X : Type} (E : List Tok → Res X) (pub : Bool) (f : Nat) (s : String) (r : List Tok) :
    pElement E (f + 3) pub (.ident "Real" :: .ident s :: .lpar :: .kRedeclare :: r) = .ub := by
  simp [pElement, pPrefix, pType, ident, Res.bind, accept, pOptMod, pMod, expect, pArgs, pArg]

/-- Also `replaceable`, after `each` and `final` or without them. -/
theorem C121_replaceable {X : Type} (E : List Tok → Res X) (pub each final : Bool) (f : Nat) (s : String) (r : List Tok) :
    pElement E (f + 3) pub (.ident "Real" :: .ident s :: .lpar ::
      ((if each then [.kEach] else []) ++ ((if final then [.kFinal] else []) ++ .kReplaceable :: r))) = .ub := by
  cases each <;> cases final <;> simp [pElement, pPrefix, pType, ident, Res.bind, accept, pOptMod, pMod, expect, pArgs, pArg]

/-- The sizes after the name (`Real x[3]`) are refused. -/
theorem C121_after_name {X : Type} (E : List Tok → Res X) (pub : Bool) (s : String) (r : List Tok) :
    parseElementList E pub (.ident "Real" :: .ident s :: .lsquare :: r) = .error := by
  simp [parseElementList, pList, atSection, pElement, pPrefix, pType, ident, Res.bind, accept, pOptMod, pTail, expect]

/-- A token of an expression. -/
def C121_ofExpr : Parse.Tok → Tok
  | .ident s => .ident s
  | .int n => .int n
  | .str s => .str s
  | .dot => .dot
  | .comma => .comma
  | .colon => .colon
  | .lpar => .lpar
  | .rpar => .rpar
  | .lsquare => .lsquare
  | .rsquare => .rsquare
  | .assign => .equal
  | t => .other t

theorem C121_toExpr_ofExpr (t : Parse.Tok) : (C121_ofExpr t).toExpr = t := by cases t <;> rfl

theorem C121_ofExpr_colon (t : Parse.Tok) (h : C121_ofExpr t = .colon) : t = .colon := by cases t <;> simp_all [C121_ofExpr]

/-- A written expression: tokens that derive from the common grammar, with the tree that they stand for. -/
def C121_Expr : Type := { p : List Parse.Tok × Parse.Ast // Spec.Der Spec.common .expr p.1 p.2 }

/-- The parser of expressions reads the expressions of the common grammar as their trees. -/
theorem C121_reads : Reads exprParser (fun e : C121_Expr => e.1.1.map C121_ofExpr) fun e => e.1.2 where
  read e t r ht := by
    have hm : ((e.1.1.map C121_ofExpr) ++ t :: r).map Tok.toExpr = e.1.1 ++ (t :: r).map Tok.toExpr := by
      rw [List.map_append, List.map_map, show Tok.toExpr ∘ C121_ofExpr = id from funext C121_toExpr_ofExpr, List.map_id]
    have h := Parse.parseExpression_complete (r := (t :: r).map Tok.toExpr) e.2 (by
      rw [List.map_cons, Parse.fol_cons]
      cases t <;> simp_all [stop, Tok.toExpr, Parse.rank])
    simp only [exprParser, hm, h]
    simp
  head e hc := by
    obtain ⟨⟨ts, a⟩, h⟩ := e
    cases ts with
    | nil => simp at hc
    | cons u ts =>
      have hu := C121_ofExpr_colon u (by simpa using hc)
      subst hu
      have h1 := Parse.parseExpression_complete (r := []) h (by simp [Parse.Fol])
      have h2 : Parse.parse 20 .expr (.colon :: (ts ++ [])) = .ub := rfl
      rw [List.cons_append, Parse.parseExpression_eq (k := 20) (by rw [h2]; simp), h2] at h1
      cases h1

/-- The claim with the parser of expressions of marco. -/
theorem C121_marco (pub : Bool) (ds : List (Decl C121_Expr)) (k : Nat) (r : List Tok)
    (h : ∀ d ∈ ds, d.Ok fun e => e.1.1.map C121_ofExpr) (hn : ∀ d ∈ ds, ¬ d.NumberFirst fun e => e.1.1.map C121_ofExpr) :
    parseElementList exprParser pub (showDecls (fun e => e.1.1.map C121_ofExpr) ds ++ .kSection k :: r) =
      .ok (ds.map fun d => d.member (fun e => e.1.2) pub) (.kSection k :: r) :=
  C121_decls_partial C121_reads pub ds k r h hn

namespace C121_Sample

/-- `2 * n` as a written expression. -/
def twice : C121_Expr :=
  ⟨([.int 2, .times, .ident "n"], .op .multiply [.int 2, .ref false [.entry "n" []]]),
    .expr (.simple (.logical (.lterm (.lfactor (.relation (.arith
      (.mul (ts := [.int 2]) (t := .times) (by simp [Spec.mulToks]) (.term (.factor .int))
        (.factor (.ref (.cref (.pathOne .entry))))))))))) ⟩

/-- `n`. -/
def name : C121_Expr :=
  ⟨([.ident "n"], .ref false [.entry "n" []]),
    .expr (.simple (.logical (.lterm (.lfactor (.relation (.arith (.term (.factor (.ref (.cref (.pathOne .entry))))))))))) ⟩

/-- `final parameter input .A.B[:, 3, n] x(each final start = 2 * n, min(y) = n) = n "c" annotation(z);`. -/
def decl : Decl C121_Expr :=
  ⟨true, .parameter, .input, .user true ["A", "B"], [.all, .num 3, .expr name], "x",
    some (.clsValue (.cons (.withMod true true "start" (.value twice))
      (.one (.withMod false false "min" (.clsValue (.one (.plain false false "y")) name)))) name),
    some "c", some (.one (.plain false false "z"))⟩

/-- `Real y;` -/
def plain : Decl C121_Expr := ⟨false, .none, .none, .real, [], "y", none, none, none⟩

/-- The hypotheses of the theorems hold for them. -/
example : (∀ d ∈ [decl, plain], d.Ok fun e => e.1.1.map C121_ofExpr) ∧ ∀ d ∈ [decl, plain], ¬ d.NumberFirst fun e => e.1.1.map C121_ofExpr := by
  have hx : ∀ e : C121_Expr, Dim.expr e ∈ decl.dims → e = name := by
    intro e he
    simpa [decl] using he
  refine ⟨fun d hd => ?_, fun d hd => ?_⟩ <;> simp only [List.mem_cons, List.not_mem_nil, or_false] at hd <;> rcases hd with rfl | rfl
  · refine ⟨by simp [decl, Ty.Ok], fun e he n hc => ?_⟩
    obtain rfl := hx e he
    simp [name, C121_ofExpr] at hc
  · simp [plain, Decl.Ok, Ty.Ok]
  · rintro ⟨e, n, he, hc⟩
    obtain rfl := hx e he
    simp [name, C121_ofExpr] at hc
  · simp [plain, Decl.NumberFirst]

/-- `Real[2 * n] x;` -/
def product : Decl C121_Expr := ⟨false, .none, .none, .real, [.expr twice], "x", none, none, none⟩

theorem product_ok : product.Ok fun e => e.1.1.map C121_ofExpr := by
  refine ⟨by simp [product, Ty.Ok], fun e he n hc => ?_⟩
  obtain rfl : e = twice := by simpa [product] using he
  simp [twice] at hc

end C121_Sample

open C121_Sample in
/-- The claim is false: `Real[2 * n] x;` is refused. -/
theorem C121_full_false : ¬ C121_full := by
  intro h
  have h1 := h _ _ _ _ _ C121_reads true [product] 0 [] (by simpa using product_ok)
  have h2 : parseElementList exprParser true (showDecls (fun e : C121_Expr => e.1.1.map C121_ofExpr) [product] ++ [.kSection 0]) = .error := by
    simp [parseElementList, pList, atSection, showDecls, showDecl, flag, product, showVariability, showIO, showTy, showDims, showDim, twice,
      C121_ofExpr, pElement, pPrefix, pType, ident, Res.bind, accept, pDims, pDim, expect]
  rw [h2] at h1
  cases h1

end Marco.Props
