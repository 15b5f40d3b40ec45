import Verif.Spec.StmtParser
import Verif.Lemmas.EqParser

/-! # Lemmas about the parser of algorithm sections -/

namespace Marco.StmtParse
open Marco.Parse (Tok Res)
open Marco.EqParse (isA isOne expect pIndices tEnd tLoop tWhen tSemicolon tInitial tEquation isA_same isA_ne expect_same expect_ne isOne_mem
  isOne_not pIndices_show showIndices_length)
open Marco.Spec.StmtParse
open Marco.Spec.EqParse (stop showIndices)

variable {D X O A : Type} {P : Parsers D X O A} {F : Forms D X O A}

/-- The keywords that end lists of statements. -/
def stopWords : List Tok := [.kElse, .kElseIf] ++ sectionEnds

theorem showStmt_start (hP : Reads P F) (s : Stmt D X O A) : ∃ u us, showStmt F s = u :: us ∧ u ∉ stopWords := by
  have key : ∀ (d : D) (l : List Tok), ∃ u us, F.ref d ++ l = u :: us ∧ u ∉ stopWords := by
    intro d l
    obtain ⟨t, us, h, hk⟩ := hP.head d
    refine ⟨t, us ++ l, by simp [h], ?_⟩
    simp only [keywords, stopWords, sectionEnds, List.mem_append, List.mem_cons, List.not_mem_nil, or_false, not_or] at hk ⊢
    simp only [hk]
    simp
  cases s with
  | assign d e => exact key d _
  | call g as => exact key g _
  | assignCall o g as => exact ⟨.lpar, _, rfl, by simp [stopWords, sectionEnds]⟩
  | brk => exact ⟨tBreak, _, rfl, by simp [stopWords, sectionEnds]⟩
  | ret => exact ⟨tReturn, _, rfl, by simp [stopWords, sectionEnds]⟩
  | cond c b bs els => exact ⟨.kIf, _, rfl, by simp [stopWords, sectionEnds]⟩
  | loop is b => exact ⟨.kFor, _, rfl, by simp [stopWords, sectionEnds]⟩
  | «while» c b => exact ⟨tWhile, _, rfl, by simp [stopWords, sectionEnds]⟩
  | when c b => exact ⟨tWhen, _, rfl, by simp [stopWords, sectionEnds]⟩

theorem pCallArgs_show (hP : Reads P F) (as : Option A) (r : List Tok) : pCallArgs P (showArgs F as ++ r) = .ok as r := by
  cases as with
  | none => simp [pCallArgs, showArgs, expect_same, EqParse.bind, isA_same]
  | some a =>
    obtain ⟨t, us, h, hk⟩ := hP.argsHead a
    have h1 := hP.args a r
    have h2 : isA .rpar (F.args a ++ .rpar :: r) = false := by rw [h, List.cons_append]; exact isA_ne hk _
    have he : showArgs F (some a) ++ r = .lpar :: (F.args a ++ .rpar :: r) := by simp [showArgs]
    rw [he]
    simp [pCallArgs, expect_same, EqParse.bind, h1, h2]

/-- Statements that begin with a component reference. -/
theorem pStmt_ref (hP : Reads P F) (d : D) (l : List Tok) (f : Nat) :
    pStmt P (f + 1) (F.ref d ++ l) = EqParse.bind (P.ref (F.ref d ++ l)) fun d r1 =>
        if isA .lpar r1 then EqParse.bind (P.args r1.tail) fun as r2 => EqParse.bind (expect .rpar r2) fun _ r3 => .ok (.call d (some as)) r3
        else EqParse.bind (expect tAssign r1) fun _ r2 => EqParse.bind (P.expr r2) fun e r3 => .ok (.assign d e) r3 := by
  obtain ⟨t, us, h, hk⟩ := hP.head d
  simp only [keywords, List.mem_append, List.mem_cons, List.not_mem_nil, or_false, not_or] at hk
  have g : ∀ k, t ≠ k → isA k (F.ref d ++ l) = false := by
    intro k hk; rw [h, List.cons_append]; exact isA_ne hk _
  obtain ⟨⟨h1, h2, _, _, h5, h6, h7, h8, h9⟩, _⟩ := hk
  rw [pStmt, g _ h1, g _ h2, g _ h5, g _ h6, g _ h7, g _ h8, g _ h9]
  simp only [Bool.false_eq_true, if_false]

/-- What a list of statements is read as. -/
abbrev Good (P : Parsers D X O A) (F : Forms D X O A) (ss : Stmts D X O A) : Prop :=
  ∀ (f : Nat) (stops : List Tok) (t : Tok) (r : List Tok), (∀ s ∈ stops, s ∈ stopWords) → t ∈ stops →
    2 * (showStmts F ss).length + 1 ≤ f → pStmts P f stops (showStmts F ss ++ t :: r) = .ok ss (t :: r)

theorem branches_first (bs : Branches D X O A) (t : Tok) (r : List Tok) (ht : t ∈ [Tok.kElse, tEnd]) :
    ∃ u us, showBranches F bs ++ t :: r = u :: us ∧ u ∈ [Tok.kElseIf, .kElse, tEnd] := by
  cases bs with
  | nil => exact ⟨t, r, by simp [showBranches], List.mem_cons_of_mem _ ht⟩
  | cons c b bs => exact ⟨.kElseIf, _, by simp only [showBranches, List.cons_append]; rfl, List.mem_cons_self⟩

theorem showElse_first (els : Else D X O A) (r : List Tok) : ∃ u us, showElse F els ++ tEnd :: r = u :: us ∧ u ∈ [Tok.kElse, tEnd] := by
  cases els with
  | none => exact ⟨tEnd, r, by simp [showElse], by simp⟩
  | some b => exact ⟨.kElse, _, by simp only [showElse, List.cons_append]; rfl, by simp⟩

theorem stops_cond : ∀ s ∈ [Tok.kElseIf, .kElse, tEnd], s ∈ stopWords := by
  intro s hs
  simp at hs
  rcases hs with rfl | rfl | rfl <;> simp [stopWords, sectionEnds]

theorem stops_end : ∀ s ∈ [tEnd], s ∈ stopWords := by simp [stopWords, sectionEnds]

mutual
theorem pStmt_show (hP : Reads P F) : ∀ (s : Stmt D X O A), Stmt.Ok True s → ∀ (f : Nat) (r : List Tok), 2 * (showStmt F s).length ≤ f →
    pStmt P f (showStmt F s ++ tSemicolon :: r) = .ok s (tSemicolon :: r)
  | .assign d e, _, f, r, hf => by
    cases f with
    | zero => simp [showStmt] at hf
    | succ f =>
      have h1 := hP.ref d tAssign (F.expr e ++ tSemicolon :: r) (.inr rfl)
      have h2 := hP.expr e tSemicolon r (by simp [stop])
      have he : showStmt F (.assign d e) ++ tSemicolon :: r = F.ref d ++ tAssign :: (F.expr e ++ tSemicolon :: r) := by simp [showStmt]
      rw [he, pStmt_ref hP, h1]
      simp [EqParse.bind, isA_ne, expect_same, h2]
  | .assignCall o g as, _, f, r, hf => by
    cases f with
    | zero => simp [showStmt] at hf
    | succ f =>
      have he : showStmt F (.assignCall o g as) ++ tSemicolon :: r =
          .lpar :: (F.outs o ++ .rpar :: tAssign :: (F.ref g ++ (showArgs F as ++ tSemicolon :: r))) := by simp [showStmt]
      have h1 := hP.outs o (tAssign :: (F.ref g ++ (showArgs F as ++ tSemicolon :: r)))
      have h2 : P.ref (F.ref g ++ (showArgs F as ++ tSemicolon :: r)) = .ok g (showArgs F as ++ tSemicolon :: r) := by
        cases as <;> simpa [showArgs] using hP.ref g .lpar _ (.inl rfl)
      have h3 := pCallArgs_show hP as (tSemicolon :: r)
      rw [he, pStmt]
      simp [isA_ne, isA_same, h1, EqParse.bind, expect_same, h2, h3]
  | .call g none, hok, _, _, _ => by simp [Stmt.Ok] at hok
  | .call g (some a), _, f, r, hf => by
    cases f with
    | zero => simp [showStmt, showArgs] at hf
    | succ f =>
      have h1 := hP.ref g .lpar (F.args a ++ .rpar :: tSemicolon :: r) (.inl rfl)
      have h2 := hP.args a (tSemicolon :: r)
      have he : showStmt F (.call g (some a)) ++ tSemicolon :: r = F.ref g ++ .lpar :: (F.args a ++ .rpar :: tSemicolon :: r) := by
        simp [showStmt, showArgs]
      rw [he, pStmt_ref hP, h1]
      simp [EqParse.bind, isA_same, expect_same, h2]
  | .brk, _, f, r, hf => by
    cases f with
    | zero => simp [showStmt] at hf
    | succ f => simp [pStmt, showStmt, isA_ne, isA_same]
  | .ret, _, f, r, hf => by
    cases f with
    | zero => simp [showStmt] at hf
    | succ f => simp [pStmt, showStmt, isA_ne, isA_same]
  | .cond c b bs els, hok, f, r, hf => by
    simp only [Stmt.Ok] at hok
    obtain ⟨hb, hbs, hels⟩ := hok
    have hl : (showStmt F (.cond c b bs els)).length = (F.expr c).length + (showStmts F b).length + (showBranches F bs).length +
        (showElse F els).length + 4 := by simp [showStmt]; omega
    rw [hl] at hf
    cases f with
    | zero => omega
    | succ f =>
      have he : showStmt F (.cond c b bs els) ++ tSemicolon :: r = .kIf :: (F.expr c ++ .kThen :: (showStmts F b ++ (showBranches F bs ++
          (showElse F els ++ tEnd :: .kIf :: tSemicolon :: r)))) := by simp [showStmt]
      obtain ⟨u, us, hu, hu'⟩ := showElse_first (F := F) els (.kIf :: tSemicolon :: r)
      obtain ⟨v, vs, hv, hv'⟩ := branches_first (F := F) bs u us hu'
      have h1 := hP.expr c .kThen (showStmts F b ++ (showBranches F bs ++ (showElse F els ++ tEnd :: .kIf :: tSemicolon :: r))) rfl
      have h2 := pStmts_show hP b hb f [.kElseIf, .kElse, tEnd] v vs stops_cond hv' (by omega)
      rw [← hv, ← hu] at h2
      have h3 := pBranches_show hP bs hbs f u us hu' (by omega)
      rw [← hu] at h3
      have h4 := pElse_show hP els hels f (.kIf :: tSemicolon :: r) (by omega)
      rw [he, pStmt, isA_same, if_pos rfl, List.tail_cons, h1]
      simp only [EqParse.bind, expect_same, h2, h3]
      simp only [EqParse.bind] at h4
      simp only [h4, expect_same]
  | .loop is b, hok, f, r, hf => by
    simp only [Stmt.Ok] at hok
    have hl : (showStmt F (.loop is b)).length = (showIndices F.expr is).length + (showStmts F b).length + 4 := by simp [showStmt]; omega
    rw [hl] at hf
    have hi := showIndices_length (prX := F.expr) is
    cases f with
    | zero => omega
    | succ f =>
      have he : showStmt F (.loop is b) ++ tSemicolon :: r =
          .kFor :: (showIndices F.expr is ++ tLoop :: (showStmts F b ++ tEnd :: .kFor :: tSemicolon :: r)) := by simp [showStmt]
      have h1 := pIndices_show (valX := id) (fun e t r ht => hP.expr e t r ht) is f (showStmts F b ++ tEnd :: .kFor :: tSemicolon :: r) hok.1 (by omega)
      have h2 := pStmts_show hP b hok.2 f [tEnd] tEnd (.kFor :: tSemicolon :: r) stops_end (by simp) (by omega)
      rw [he, pStmt, isA_ne (by simp), isA_same]
      simp only [Bool.false_eq_true, if_false, if_true, List.tail_cons, h1, EqParse.bind, expect_same, h2]
      simp
  | .while c b, hok, f, r, hf => by
    simp only [Stmt.Ok] at hok
    have hl : (showStmt F (.while c b)).length = (F.expr c).length + (showStmts F b).length + 4 := by simp [showStmt]; omega
    rw [hl] at hf
    cases f with
    | zero => omega
    | succ f =>
      have he : showStmt F (.while c b) ++ tSemicolon :: r =
          tWhile :: (F.expr c ++ tLoop :: (showStmts F b ++ tEnd :: tWhile :: tSemicolon :: r)) := by simp [showStmt]
      have h1 := hP.expr c tLoop (showStmts F b ++ tEnd :: tWhile :: tSemicolon :: r) (by simp [stop])
      have h2 := pStmts_show hP b hok f [tEnd] tEnd (tWhile :: tSemicolon :: r) stops_end (by simp) (by omega)
      rw [he, pStmt, isA_ne (by simp), isA_ne (by simp), isA_same]
      simp only [Bool.false_eq_true, if_false, if_true, List.tail_cons, h1, EqParse.bind, expect_same, h2]
  | .when c b, hok, _, _, _ => by simp [Stmt.Ok] at hok
theorem pElse_show (hP : Reads P F) : ∀ (els : Else D X O A), Else.Ok True els → ∀ (f : Nat) (r : List Tok),
    2 * (showElse F els).length + 1 ≤ f →
    (if isA .kElse (showElse F els ++ tEnd :: r) then EqParse.bind (pStmts P f [tEnd] (showElse F els ++ tEnd :: r).tail) fun b r => .ok (.some b) r
      else .ok .none (showElse F els ++ tEnd :: r)) = .ok els (tEnd :: r)
  | .none, _, f, r, hf => by simp [showElse, isA_ne]
  | .some b, hok, f, r, hf => by
    simp only [Else.Ok] at hok
    have h := pStmts_show hP b hok f [tEnd] tEnd r stops_end (by simp) (by simp [showElse] at hf; omega)
    simp [showElse, isA_same, h, EqParse.bind]
theorem pStmts_show (hP : Reads P F) : ∀ (ss : Stmts D X O A), Stmts.Ok True ss → Good P F ss
  | .nil, _, f, stops, t, r, hs, ht, hf => by
    cases f with
    | zero => omega
    | succ f => simp [pStmts, showStmts, isOne_mem ht]
  | .cons s ss, hok, f, stops, t, r, hs, ht, hf => by
    simp only [Stmts.Ok] at hok
    cases f with
    | zero => omega
    | succ f =>
      have hl : (showStmts F (.cons s ss)).length = (showStmt F s).length + (showStmts F ss).length + 1 := by simp [showStmts]; omega
      rw [hl] at hf
      have h1 := pStmt_show hP s hok.1 f (showStmts F ss ++ t :: r) (by omega)
      have h2 := pStmts_show hP ss hok.2 f stops t r hs ht (by omega)
      have he : showStmts F (.cons s ss) ++ t :: r = showStmt F s ++ tSemicolon :: (showStmts F ss ++ t :: r) := by simp [showStmts]
      obtain ⟨u, us, hu, hu'⟩ := showStmt_start hP s
      have hn : isOne stops (showStmt F s ++ tSemicolon :: (showStmts F ss ++ t :: r)) = false := by
        rw [hu, List.cons_append]
        exact isOne_not (fun hc => hu' (hs u hc)) _
      rw [he, pStmts, hn]
      simp only [Bool.false_eq_true, if_false, h1, EqParse.bind, expect_same, h2]
theorem pBranches_show (hP : Reads P F) : ∀ (bs : Branches D X O A), Branches.Ok True bs → ∀ (f : Nat) (t : Tok) (r : List Tok),
    t ∈ [Tok.kElse, tEnd] → 2 * (showBranches F bs).length + 1 ≤ f →
      pBranches P f (showBranches F bs ++ t :: r) = .ok bs (t :: r)
  | .nil, _, f, t, r, ht, hf => by
    cases f with
    | zero => omega
    | succ f => simp [pBranches, showBranches, isOne_mem ht]
  | .cons c b bs, hok, f, t, r, ht, hf => by
    simp only [Branches.Ok] at hok
    cases f with
    | zero => omega
    | succ f =>
      have hl : (showBranches F (.cons c b bs)).length = (F.expr c).length + (showStmts F b).length + (showBranches F bs).length + 2 := by
        simp [showBranches]; omega
      rw [hl] at hf
      have he : showBranches F (.cons c b bs) ++ t :: r = .kElseIf :: (F.expr c ++ .kThen :: (showStmts F b ++
          (showBranches F bs ++ t :: r))) := by simp [showBranches]
      obtain ⟨v, vs, hv, hv'⟩ := branches_first (F := F) bs t r ht
      have h1 := hP.expr c .kThen (showStmts F b ++ (showBranches F bs ++ t :: r)) rfl
      have h2 := pStmts_show hP b hok.1 f [.kElseIf, .kElse, tEnd] v vs stops_cond hv' (by omega)
      rw [← hv] at h2
      have h3 := pBranches_show hP bs hok.2 f t r ht (by omega)
      rw [he, pBranches, isOne_not (by simp)]
      simp only [Bool.false_eq_true, if_false, EqParse.bind, expect_same, h1, h2, h3]
end

end Marco.StmtParse
