import Verif.Spec.DeclParser

/-! # Lemmas about the parser of declarations -/

namespace Marco.DeclParse
open Marco.Spec.DeclParse

variable {X Y : Type} {E : List Tok → Res Y} {pr : X → List Tok} {val : X → Y}

theorem accept_same (t : Tok) (r : List Tok) : accept t (t :: r) = (true, r) := by simp [accept]

theorem accept_other {t u : Tok} (h : u ≠ t) (r : List Tok) : accept t (u :: r) = (false, u :: r) := by simp [accept, h]

theorem expr_read (hE : Reads E pr val) (e : X) (t : Tok) (r : List Tok) (ht : stop t = true) : E (pr e ++ t :: r) = .ok (val e) (t :: r) :=
  hE.read e t r ht

theorem stop_ne {t : Tok} (h : stop t = true) : t ≠ .equal ∧ t ≠ .lpar ∧ t ≠ .assign := by
  refine ⟨?_, ?_, ?_⟩ <;> (intro hc; subst hc; simp [stop] at h)

theorem stop_startsMod {t : Tok} (h : stop t = true) (r : List Tok) : startsMod (t :: r) = false := by
  cases t <;> simp_all [stop, startsMod]

theorem showMod_starts (m : Modif X) (r : List Tok) : startsMod (showMod pr m ++ r) = true := by
  cases m <;> simp [showMod, startsMod]

theorem flags (each final : Bool) (n : String) (r : List Tok) :
    (accept .kRedeclare (flag each .kEach ++ (flag final .kFinal ++ .ident n :: r))).1 = false ∧
    accept .kEach (flag each .kEach ++ (flag final .kFinal ++ .ident n :: r)) = (each, flag final .kFinal ++ .ident n :: r) ∧
    accept .kFinal (flag final .kFinal ++ .ident n :: r) = (final, .ident n :: r) := by
  cases each <;> cases final <;> simp [flag, accept]

mutual
theorem pMod_show (hE : Reads E pr val) : ∀ (m : Modif X) (f : Nat) (t : Tok) (r : List Tok), stop t = true →
    2 * (showMod pr m).length ≤ f → pMod E f (showMod pr m ++ t :: r) = .ok (mapMod val m) (t :: r)
  | .value e, f, t, r, ht, hf => by
    cases f with
    | zero => simp [showMod] at hf
    | succ f =>
      simp only [pMod, showMod, List.cons_append, accept_same, if_true, expr_read hE e t r ht, Res.bind, mapMod]
  | .cls as, f, t, r, ht, hf => by
    cases f with
    | zero => simp [showMod] at hf
    | succ f =>
      have hl : 2 * (showArgs pr as).length ≤ f := by simp [showMod] at hf; omega
      have h := pArgs_show hE as f .rpar (t :: r) rfl (by decide) hl
      have he : showMod pr (.cls as) ++ t :: r = .lpar :: (showArgs pr as ++ .rpar :: t :: r) := by simp [showMod]
      rw [he]
      have h1 : accept .equal (.lpar :: (showArgs pr as ++ .rpar :: t :: r)) = (false, _) := accept_other (by decide) _
      have h2 : accept .assign (.lpar :: (showArgs pr as ++ .rpar :: t :: r)) = (false, _) := accept_other (by decide) _
      simp [mapMod, pMod, h1, h2, expect, h, Res.bind, accept_other (stop_ne ht).1]
  | .clsValue as e, f, t, r, ht, hf => by
    cases f with
    | zero => simp [showMod] at hf
    | succ f =>
      have hl : 2 * (showArgs pr as).length ≤ f := by simp [showMod] at hf; omega
      have h := pArgs_show hE as f .rpar (.equal :: (pr e ++ t :: r)) rfl (by decide) hl
      have he : showMod pr (.clsValue as e) ++ t :: r = .lpar :: (showArgs pr as ++ .rpar :: .equal :: (pr e ++ t :: r)) := by simp [showMod]
      rw [he]
      have h1 : accept .equal (.lpar :: (showArgs pr as ++ .rpar :: .equal :: (pr e ++ t :: r))) = (false, _) := accept_other (by decide) _
      have h2 : accept .assign (.lpar :: (showArgs pr as ++ .rpar :: .equal :: (pr e ++ t :: r))) = (false, _) := accept_other (by decide) _
      simp [mapMod, pMod, h1, h2, expect, h, Res.bind, accept_same, expr_read hE e t r ht]
theorem pArgs_show (hE : Reads E pr val) : ∀ (as : Args X) (f : Nat) (t : Tok) (r : List Tok), stop t = true → t ≠ .comma →
    2 * (showArgs pr as).length ≤ f → pArgs E f (showArgs pr as ++ t :: r) = .ok (mapArgs val as) (t :: r)
  | .one a, f, t, r, ht, hc, hf => by
    cases f with
    | zero => cases a <;> simp [showArgs, showArg] at hf
    | succ f =>
      have h := pArg_show hE a f t r ht (by simp [showArgs] at hf; omega)
      simp [mapArgs, pArgs, showArgs, h, Res.bind, accept_other hc]
  | .cons a as, f, t, r, ht, hc, hf => by
    cases f with
    | zero => cases a <;> simp [showArgs, showArg] at hf
    | succ f =>
      have h := pArg_show hE a f .comma (showArgs pr as ++ t :: r) rfl (by simp [showArgs] at hf; omega)
      have h2 := pArgs_show hE as f t r ht hc (by simp [showArgs] at hf; omega)
      have he : showArgs pr (.cons a as) ++ t :: r = showArg pr a ++ .comma :: (showArgs pr as ++ t :: r) := by simp [showArgs]
      rw [he]
      simp [mapArgs, pArgs, h, h2, Res.bind, accept_same]
theorem pArg_show (hE : Reads E pr val) : ∀ (a : Arg X) (f : Nat) (t : Tok) (r : List Tok), stop t = true →
    2 * (showArg pr a).length ≤ f + 1 → pArg E f (showArg pr a ++ t :: r) = .ok (mapArg val a) (t :: r)
  | .plain each final n, f, t, r, ht, hf => by
    cases f with
    | zero => simp [showArg] at hf; omega
    | succ f =>
      have he : showArg pr (.plain each final n) ++ t :: r = flag each .kEach ++ (flag final .kFinal ++ .ident n :: t :: r) := by simp [showArg]
      rw [he]
      obtain ⟨h1, h2, h3⟩ := flags each final n (t :: r)
      have h4 : accept .kReplaceable (.ident n :: t :: r) = (false, .ident n :: t :: r) := accept_other (by simp) _
      simp [mapArg, pArg, h1, h2, h3, h4, ident, Res.bind, stop_startsMod ht]
  | .withMod each final n m, f, t, r, ht, hf => by
    cases f with
    | zero => simp [showArg] at hf; omega
    | succ f =>
      have he : showArg pr (.withMod each final n m) ++ t :: r =
          flag each .kEach ++ (flag final .kFinal ++ .ident n :: (showMod pr m ++ t :: r)) := by simp [showArg]
      rw [he]
      obtain ⟨h1, h2, h3⟩ := flags each final n (showMod pr m ++ t :: r)
      have h4 : accept .kReplaceable (.ident n :: (showMod pr m ++ t :: r)) = (false, .ident n :: (showMod pr m ++ t :: r)) :=
        accept_other (by simp) _
      have h := pMod_show hE m f t r ht (by simp [showArg] at hf; omega)
      simp [mapArg, pArg, h1, h2, h3, h4, ident, Res.bind, showMod_starts, h]
end

theorem pDim_show (hE : Reads E pr val) (d : Dim X) (hd : ∀ e, d = .expr e → ∀ n, (pr e).head? ≠ some (.int n)) (t : Tok) (r : List Tok)
    (ht : stop t = true) : pDim E (showDim pr d ++ t :: r) = .ok (mapDim val d) (t :: r) := by
  cases d with
  | all => simp [showDim, pDim, mapDim]
  | num n => simp [showDim, pDim, mapDim]
  | expr e =>
    have h := expr_read hE e t r ht
    have h1 := hE.head e
    have h2 := hd e rfl
    simp only [showDim]
    generalize pr e = l at *
    cases l with
    | nil =>
      have : t ≠ .colon ∧ ∀ n, t ≠ .int n := by cases t <;> simp_all [stop]
      cases t <;> simp_all [pDim, Res.bind, mapDim]
    | cons u l => cases u <;> simp_all [pDim, Res.bind, mapDim]

theorem pDims_show (hE : Reads E pr val) : ∀ (ds : List (Dim X)) (f : Nat) (r : List Tok), ds ≠ [] →
    (∀ e, Dim.expr e ∈ ds → ∀ n, (pr e).head? ≠ some (.int n)) → ds.length ≤ f →
    pDims E f (showDims pr ds ++ r) = .ok (ds.map (mapDim val)) r
  | [], _, _, h, _, _ => absurd rfl h
  | [d], f, r, _, hd, hf => by
    cases f with
    | zero => simp at hf
    | succ f =>
      have h := pDim_show hE d (fun e he => hd e (by simp [he])) .rsquare r rfl
      have he : showDims pr [d] ++ r = showDim pr d ++ .rsquare :: r := by simp [showDims]
      rw [he]
      simp [pDims, h, Res.bind, accept, expect]
  | d :: d' :: ds, f, r, _, hd, hf => by
    cases f with
    | zero => simp at hf
    | succ f =>
      have h := pDim_show hE d (fun e he => hd e (by simp [he])) .comma (showDims pr (d' :: ds) ++ r) rfl
      have h2 := pDims_show hE (d' :: ds) f r (by simp) (fun e he => hd e (List.mem_cons_of_mem _ he)) (by simp at hf ⊢; omega)
      have he : showDims pr (d :: d' :: ds) ++ r = showDim pr d ++ .comma :: (showDims pr (d' :: ds) ++ r) := by simp [showDims]
      rw [he]
      simp [pDims, h, h2, Res.bind, accept]

theorem pPath_show : ∀ (ns : List String) (f : Nat) (t : Tok) (r : List Tok), t ≠ .dot → ns.length < f →
    pPath f (showPath ns ++ t :: r) = .ok ns (t :: r)
  | [], f, t, r, ht, hf => by
    cases f with
    | zero => omega
    | succ f => simp [pPath, showPath, accept_other ht]
  | n :: ns, f, t, r, ht, hf => by
    cases f with
    | zero => omega
    | succ f =>
      have h := pPath_show ns f t r ht (by simp at hf; omega)
      simp [pPath, showPath, accept_same, ident, Res.bind, h]

/-- The dimensions with the brackets. -/
def brackets (pr : X → List Tok) (ds : List (Dim X)) : List Tok := if ds = [] then [] else .lsquare :: showDims pr ds

theorem brackets_first (ds : List (Dim X)) (n : String) (r : List Tok) :
    ∃ t r', brackets pr ds ++ .ident n :: r = t :: r' ∧ t ≠ .dot := by
  cases ds with
  | nil => exact ⟨.ident n, r, by simp [brackets], by simp⟩
  | cons d ds => exact ⟨.lsquare, showDims pr (d :: ds) ++ .ident n :: r, by simp [brackets], by simp⟩

theorem pBrackets (hE : Reads E pr val) (ty : Ty) (ds : List (Dim X)) (f : Nat) (n : String) (r : List Tok)
    (hd : ∀ e, Dim.expr e ∈ ds → ∀ n, (pr e).head? ≠ some (.int n)) (hf : ds.length ≤ f) :
    (if (accept .lsquare (brackets pr ds ++ .ident n :: r)).1 then
      (pDims E f (accept .lsquare (brackets pr ds ++ .ident n :: r)).2).bind fun ds r3 => .ok (ty, ds) r3
      else (.ok (ty, []) (brackets pr ds ++ .ident n :: r) : Res (Ty × List (Dim Y)))) = .ok (ty, ds.map (mapDim val)) (.ident n :: r) := by
  by_cases h0 : ds = []
  · subst h0; simp [brackets, accept]
  · have h := pDims_show hE ds f (.ident n :: r) h0 hd hf
    simp [brackets, h0, accept, h, Res.bind]

theorem pType_show (hE : Reads E pr val) (ty : Ty) (hty : Ty.Ok ty) (ds : List (Dim X)) (f : Nat) (n : String) (r : List Tok)
    (hd : ∀ e, Dim.expr e ∈ ds → ∀ n, (pr e).head? ≠ some (.int n)) (hf : ds.length ≤ f) (hf2 : (showTy ty).length ≤ f) :
    pType E f (showTy ty ++ (brackets pr ds ++ .ident n :: r)) = .ok (ty, ds.map (mapDim val)) (.ident n :: r) := by
  have hb := pBrackets hE ty ds f n r hd hf
  cases ty with
  | string => simpa [pType, showTy, accept_other, ident, Res.bind] using hb
  | boolean => simpa [pType, showTy, accept_other, ident, Res.bind] using hb
  | integer => simpa [pType, showTy, accept_other, ident, Res.bind] using hb
  | real => simpa [pType, showTy, accept_other, ident, Res.bind] using hb
  | user g path =>
    cases path with
    | nil => exact absurd hty (by simp [Ty.Ok])
    | cons p ps =>
      simp only [Ty.Ok, List.mem_cons, List.not_mem_nil, or_false, not_or] at hty
      obtain ⟨h1, h2, h3, h4⟩ := hty
      obtain ⟨t, r', he, ht⟩ := brackets_first (pr := pr) ds n r
      have hp := pPath_show ps f t r' ht (by
        have : ∀ l : List String, (showPath l).length = 2 * l.length := by
          intro l; induction l with
          | nil => rfl
          | cons a l ih => simp [showPath, ih]; omega
        have := this ps
        simp [showTy] at hf2; omega)
      rw [← he] at hp
      have hg : accept .dot (showTy (.user g (p :: ps)) ++ (brackets pr ds ++ .ident n :: r)) =
          (g, .ident p :: (showPath ps ++ (brackets pr ds ++ .ident n :: r))) := by
        cases g <;> simp [showTy, flag, accept]
      simpa [pType, hg, ident, Res.bind, h1, h2, h3, h4, hp] using hb

theorem pPrefix_show (v : Variability) (io : IO) (r : List Tok) (hr : ∃ u r', r = u :: r' ∧ ((∃ s, u = .ident s) ∨ u = .dot)) :
    pPrefix (showVariability v ++ (showIO io ++ r)) = (v, io, r) := by
  obtain ⟨u, r', rfl, h⟩ := hr
  rcases h with ⟨s, rfl⟩ | rfl <;> cases v <;> cases io <;> simp [pPrefix, showVariability, showIO, accept]

theorem final_show (b : Bool) (v : Variability) (io : IO) (r : List Tok) (hr : ∃ u r', r = u :: r' ∧ ((∃ s, u = .ident s) ∨ u = .dot)) :
    (accept .kFinal (flag b .kFinal ++ (showVariability v ++ (showIO io ++ r)))).2 = showVariability v ++ (showIO io ++ r) := by
  obtain ⟨u, r', rfl, h⟩ := hr
  rcases h with ⟨s, rfl⟩ | rfl <;> cases b <;> cases v <;> cases io <;> simp [flag, showVariability, showIO, accept]

theorem showTy_first (ty : Ty) (hty : Ty.Ok ty) (r : List Tok) :
    ∃ u r', showTy ty ++ r = u :: r' ∧ ((∃ s, u = .ident s) ∨ u = .dot) := by
  cases ty with
  | user g path =>
    cases path with
    | nil => exact absurd hty (by simp [Ty.Ok])
    | cons p ps => cases g <;> simp [showTy, flag]
  | _ => simp [showTy]

/-- The modification of a declaration. -/
def optMod (pr : X → List Tok) : Option (Modif X) → List Tok
  | none => []
  | some m => showMod pr m

/-- The comment. -/
def optStr : Option String → List Tok
  | none => []
  | some s => [.str s]

/-- The annotation. -/
def optAnn (pr : X → List Tok) : Option (Args X) → List Tok
  | none => []
  | some as => .kAnnotation :: .lpar :: (showArgs pr as ++ [.rpar])

theorem pTail_show (hE : Reads E pr val) (c : Option String) (an : Option (Args X)) (f : Nat) (r : List Tok)
    (hf : 2 * (optAnn pr an).length ≤ f) :
    pTail E f (optStr c ++ (optAnn pr an ++ .semicolon :: r)) = .ok () (.semicolon :: r) := by
  have key : ∀ as : Args X, 2 * (optAnn pr (some as)).length ≤ f → pArgs E f (showArgs pr as ++ .rpar :: .semicolon :: r) = .ok (mapArgs val as) (.rpar :: .semicolon :: r) :=
    fun as h => pArgs_show hE as f .rpar _ rfl (by decide) (by simp [optAnn] at h; omega)
  cases an with
  | none => cases c <;> simp [pTail, optStr, optAnn, accept]
  | some as =>
    have h := key as hf
    cases c <;> simp [pTail, optStr, optAnn, accept, expect, Res.bind, h]

theorem tail_first (c : Option String) (an : Option (Args X)) (r : List Tok) :
    ∃ t r', optStr c ++ (optAnn pr an ++ .semicolon :: r) = t :: r' ∧ stop t = true := by
  cases c <;> cases an <;> simp [optStr, optAnn, stop]

theorem pOptMod_show (hE : Reads E pr val) (m : Option (Modif X)) (f : Nat) (t : Tok) (r : List Tok) (ht : stop t = true)
    (hf : 2 * (optMod pr m).length ≤ f) : pOptMod E f (optMod pr m ++ t :: r) = .ok (m.map (mapMod val)) (t :: r) := by
  obtain ⟨h1, h2, _⟩ := stop_ne ht
  cases m with
  | none => simp [pOptMod, optMod, accept_other h1, accept_other h2]
  | some m =>
    have h := pMod_show hE m f t r ht hf
    have hc : ((accept .lpar (showMod pr m ++ t :: r)).1 || (accept .equal (showMod pr m ++ t :: r)).1) = true := by
      cases m <;> simp [showMod, accept]
    simp only [pOptMod, optMod, hc, if_true, h, Res.bind, Option.map_some]

theorem showDims_length : ∀ ds : List (Dim X), ds.length ≤ (showDims pr ds).length
  | [] => by simp
  | [d] => by simp [showDims]
  | d :: d' :: ds => by
    have := showDims_length (d' :: ds)
    simp [showDims] at this ⊢; omega

theorem showDecl_eq (d : Decl X) (r : List Tok) : showDecl pr d ++ r =
    flag d.final .kFinal ++ (showVariability d.variability ++ (showIO d.io ++ (showTy d.ty ++ (brackets pr d.dims ++ .ident d.name ::
      (optMod pr d.mod ++ (optStr d.comment ++ (optAnn pr d.annotation ++ .semicolon :: r))))))) := by
  rcases d with ⟨fi, v, io, ty, ds, n, m, c, an⟩
  cases m <;> cases c <;> cases an <;> by_cases h : ds = [] <;> simp [showDecl, brackets, optMod, optStr, optAnn, h]

theorem pElement_show (hE : Reads E pr val) (d : Decl X) (hty : Ty.Ok d.ty) (hd : ∀ e, Dim.expr e ∈ d.dims → ∀ n, (pr e).head? ≠ some (.int n))
    (pub : Bool) (f : Nat) (r : List Tok) (hf : 2 * (showDecl pr d).length ≤ f) :
    pElement E f pub (showDecl pr d ++ r) = .ok (d.member val pub) (.semicolon :: r) := by
  have hlen := congrArg List.length (showDecl_eq (pr := pr) d [])
  simp only [List.append_nil, List.length_append, List.length_cons] at hlen
  have hb : d.dims.length ≤ (brackets pr d.dims).length := by
    have := showDims_length (pr := pr) d.dims
    unfold brackets
    split
    · next h => simp [h]
    · simp; omega
  rw [showDecl_eq]
  have hfirst := showTy_first d.ty hty (brackets pr d.dims ++ .ident d.name ::
      (optMod pr d.mod ++ (optStr d.comment ++ (optAnn pr d.annotation ++ .semicolon :: r))))
  obtain ⟨t, r', he, ht⟩ := tail_first (pr := pr) d.comment d.annotation r
  have h1 := pOptMod_show hE d.mod f t r' ht (by omega)
  rw [← he] at h1
  have h2 := pTail_show hE d.comment d.annotation f r (by omega)
  unfold pElement
  rw [final_show _ _ _ _ hfirst, pPrefix_show _ _ _ hfirst]
  simp only [pType_show hE d.ty hty d.dims f d.name _ hd (by omega) (by omega), Res.bind, ident, h1, h2, Decl.member]

theorem showDecl_not_section (d : Decl X) (hty : Ty.Ok d.ty) (r : List Tok) : atSection (showDecl pr d ++ r) = false := by
  rw [showDecl_eq]
  obtain ⟨u, r', he, h⟩ := showTy_first d.ty hty (brackets pr d.dims ++ .ident d.name ::
      (optMod pr d.mod ++ (optStr d.comment ++ (optAnn pr d.annotation ++ .semicolon :: r))))
  rw [he]
  rcases h with ⟨s, rfl⟩ | rfl <;> cases d.final <;> cases d.variability <;> cases d.io <;> simp [flag, showVariability, showIO, atSection]

theorem showDecl_pos (d : Decl X) : 0 < (showDecl pr d).length := by
  have := congrArg List.length (showDecl_eq (pr := pr) d [])
  simp only [List.append_nil, List.length_append, List.length_cons] at this
  omega

theorem pList_show (hE : Reads E pr val) (pub : Bool) (k : Nat) (r : List Tok) : ∀ (ds : List (Decl X)) (f : Nat),
    (∀ d ∈ ds, Ty.Ok d.ty ∧ ∀ e, Dim.expr e ∈ d.dims → ∀ n, (pr e).head? ≠ some (.int n)) → ds.length < f →
    pList E pub f (showDecls pr ds ++ .kSection k :: r) = .ok (ds.map fun d => d.member val pub) (.kSection k :: r)
  | [], f, _, hf => by
    cases f with
    | zero => omega
    | succ f => simp [pList, showDecls, atSection]
  | d :: ds, f, h, hf => by
    cases f with
    | zero => omega
    | succ f =>
      obtain ⟨hty, hd⟩ := h d List.mem_cons_self
      have he : showDecls pr (d :: ds) ++ .kSection k :: r = showDecl pr d ++ (showDecls pr ds ++ .kSection k :: r) := by simp [showDecls]
      rw [he]
      have h1 := pElement_show hE d hty hd pub (2 * (showDecl pr d ++ (showDecls pr ds ++ .kSection k :: r)).length)
        (showDecls pr ds ++ .kSection k :: r) (by rw [List.length_append]; omega)
      have h2 := pList_show hE pub k r ds f (fun d' h' => h d' (List.mem_cons_of_mem _ h')) (by simp at hf; omega)
      rw [pList, showDecl_not_section d hty]
      simp only [Bool.false_eq_true, if_false, h1, Res.bind, expect, if_true, h2, List.map_cons]

theorem showDecls_length : ∀ ds : List (Decl X), ds.length ≤ (showDecls pr ds).length
  | [] => by simp
  | d :: ds => by
    have h := showDecls_length ds
    have := showDecl_pos (pr := pr) d
    simp [showDecls]; omega

theorem parseElementList_show (hE : Reads E pr val) (pub : Bool) (k : Nat) (r : List Tok) (ds : List (Decl X))
    (h : ∀ d ∈ ds, Ty.Ok d.ty ∧ ∀ e, Dim.expr e ∈ d.dims → ∀ n, (pr e).head? ≠ some (.int n)) :
    parseElementList E pub (showDecls pr ds ++ .kSection k :: r) = .ok (ds.map fun d => d.member val pub) (.kSection k :: r) := by
  have := showDecls_length (pr := pr) ds
  exact pList_show hE pub k r ds _ h (by rw [List.length_append]; omega)

end Marco.DeclParse
