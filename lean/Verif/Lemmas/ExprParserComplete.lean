import Verif.Lemmas.ExprParserTotal
import Mathlib.Order.Filter.AtTopBot.Basic

/-!
# Lemmas about the expression parser: what derives from the grammar is accepted
-/

namespace Marco.Parse
open Marco.Spec Filter

/-! ### What may follow -/

/-- How far up the levels of the grammar a token continues an expression. -/
def rank : Tok → Nat
  | .lsquare => 0
  | .dot => 1
  | .lpar | .assign | .kIn => 2
  | .pow | .powEW => 3
  | .times | .timesEW | .over | .overEW => 4
  | .plus | .plusEW | .minus | .minusEW => 5
  | .eq | .ne | .lt | .le | .gt | .ge => 6
  | .kAnd => 7
  | .kOr => 8
  | .colon => 9
  | .comma => 10
  | .kFor => 11
  | _ => 12

/-- No token of a level below `n` comes next. -/
def Fol (n : Nat) (r : List Tok) : Prop := ∀ t ∈ r.head?, n ≤ rank t

theorem Fol.mono {m n : Nat} {r : List Tok} (h : Fol n r) (hm : m ≤ n) : Fol m r :=
  fun t ht => hm.trans (h t ht)

theorem fol_cons {n : Nat} {t : Tok} {r : List Tok} : Fol n (t :: r) ↔ n ≤ rank t := by
  simp [Fol]

theorem Fol.ne {n : Nat} {r : List Tok} {t : Tok} (h : Fol n r) (ht : rank t < n) :
    r.head? ≠ some t := by
  intro he
  have := h t he
  omega

/-! ### Reading one token -/

theorem accept_yes {t : Tok} {r : List Tok} : accept t (t :: r) = .ok true r := by simp [accept]

theorem accept_not {t : Tok} {r : List Tok} (h : r.head? ≠ some t) : accept t r = .ok false r :=
  accept_ok.2 (.inr ⟨rfl, rfl, h⟩)

theorem expect_yes {t : Tok} {r : List Tok} : expect t (t :: r) = .ok () r := by simp [expect]

theorem ident_yes {s : String} {r : List Tok} : ident (.ident s :: r) = .ok s r := rfl

theorem isTok_yes {t : Tok} {r : List Tok} : isTok (· == t) (t :: r) = .ok true (t :: r) := by
  simp [isTok]

theorem isTok_not {t : Tok} {r : List Tok} (h : r.head? ≠ some t) :
    isTok (· == t) r = .ok false r :=
  isTok_ok.2 ⟨rfl, by simp [h]⟩

theorem acceptOp_yes {f : Tok → Option Op} {t : Tok} {k : Op} {r : List Tok} (h : f t = some k) :
    acceptOp f (t :: r) = .ok (some k) r := by simp [acceptOp, h]

theorem acceptOp_not {f : Tok → Option Op} {r : List Tok} (h : ∀ t ∈ r.head?, f t = none) :
    acceptOp f r = .ok none r := acceptOp_ok.2 (.inr ⟨rfl, rfl, h⟩)

theorem relOp_rank {t : Tok} (h : 7 ≤ rank t) : relOp t = none := by
  revert h; cases t <;> simp [rank, relOp]

theorem addOp_rank {t : Tok} (h : 6 ≤ rank t) : addOp t = none := by
  revert h; cases t <;> simp [rank, addOp]

theorem mulOp_rank {t : Tok} (h : 5 ≤ rank t) : mulOp t = none := by
  revert h; cases t <;> simp [rank, mulOp]

theorem powOp_rank {t : Tok} (h : 4 ≤ rank t) : powOp t = none := by
  revert h; cases t <;> simp [rank, powOp]

theorem relToks_rank {t : Tok} {k : Op} (h : (t, k) ∈ relToks) : rank t = 6 := by
  rw [← relOp_iff] at h
  revert h; cases t <;> simp [rank, relOp]

theorem addToks_rank {t : Tok} {k : Op} (h : (t, k) ∈ addToks) : rank t = 5 := by
  rw [← addOp_iff] at h
  revert h; cases t <;> simp [rank, addOp]

theorem mulToks_rank {t : Tok} {k : Op} (h : (t, k) ∈ mulToks) : rank t = 4 := by
  rw [← mulOp_iff] at h
  revert h; cases t <;> simp [rank, mulOp]

theorem powToks_rank {t : Tok} {k : Op} (h : (t, k) ∈ powToks) : rank t = 3 := by
  rw [← powOp_iff] at h
  revert h; cases t <;> simp [rank, powOp]

/-! ### Named arguments are recognised -/

/-- The tokens do not begin like a named argument. -/
def NotNamed (ts : List Tok) : Prop := ∀ s l, ts ≠ .ident s :: .assign :: l

theorem NotNamed.append {ts us : List Tok} (h : NotNamed ts) (hn : ts ≠ [])
    (hu : us.head? ≠ some .assign) : NotNamed (ts ++ us) := by
  rintro s l e
  match ts, hn with
  | [a], _ =>
    rw [List.singleton_append] at e
    rw [List.cons.injEq] at e
    rw [e.2] at hu
    exact hu rfl
  | a :: b :: c, _ =>
    simp only [List.cons_append, List.cons.injEq] at e
    exact h s c (by rw [e.1, e.2.1])

theorem first_assign (s : Sym) : first s .assign = false := by
  cases s <;> simp [first, startsExpr, startsArith, startsPrimary]

theorem der_head_assign {d : Dialect} {s : Sym} {ts : List Tok} {v : s.Val} (h : Der d s ts v) :
    ts.head? ≠ some .assign := by
  rcases der_begins h with ⟨-, rfl⟩ | ⟨t, l, rfl, ht⟩
  · simp
  · rintro e
    simp only [List.head?_cons, Option.some.injEq] at e
    rw [e, first_assign] at ht
    cases ht

/-- The symbols that may derive a named argument. -/
def mayNamed : Sym → Bool
  | .args | .nonFirst | .named | .namedArg => true
  | _ => false

theorem notNamed_append_der {d : Dialect} {s s' : Sym} {ts us : List Tok} {v : s.Val} {w : s'.Val}
    (h : Der d s ts v) (hs : s ≠ .outputs) (h' : Der d s' us w)
    (ih : mayNamed s = false → NotNamed ts) (hm : mayNamed s = false) : NotNamed (ts ++ us) :=
  (ih hm).append (der_ne h hs) (der_head_assign h')

theorem notNamed_append_cons {d : Dialect} {s : Sym} {ts us : List Tok} {v : s.Val} {t : Tok}
    (h : Der d s ts v) (hs : s ≠ .outputs) (ht : t ≠ .assign)
    (ih : mayNamed s = false → NotNamed ts) (hm : mayNamed s = false) : NotNamed (ts ++ t :: us) :=
  (ih hm).append (der_ne h hs) (by simpa using ht)

theorem notNamed_cons {t : Tok} {l : List Tok} (h : ∀ s, t ≠ .ident s) : NotNamed (t :: l) := by
  intro s l e
  simp only [List.cons.injEq] at e
  exact h s e.1

theorem der_notNamed {d : Dialect} {s : Sym} {ts : List Tok} {v : s.Val} (h : Der d s ts v) :
    mayNamed s = false → NotNamed ts := by
  induction h with
  | rel hk h1 _ ih =>
    exact fun _ => notNamed_append_cons h1 (by simp)
      (by rintro rfl; have := relToks_rank hk; simp [rank] at this) ih rfl
  | add hk h1 _ ih =>
    exact fun _ => notNamed_append_cons h1 (by simp)
      (by rintro rfl; have := addToks_rank hk; simp [rank] at this) ih rfl
  | mul hk h1 _ ih =>
    exact fun _ => notNamed_append_cons h1 (by simp)
      (by rintro rfl; have := mulToks_rank hk; simp [rank] at this) ih rfl
  | pow hk h1 _ ih =>
    exact fun _ => notNamed_append_cons h1 (by simp)
      (by rintro rfl; have := powToks_rank hk; simp [rank] at this) ih rfl
  | powChain _ hk h1 _ ih =>
    exact fun _ => notNamed_append_cons h1 (by simp)
      (by rintro rfl; have := powToks_rank hk; simp [rank] at this) ih rfl
  | entrySub h =>
    rintro - s l e
    cases h
    simp at e
  | entry => intro _ s l e; simp at e
  | forIndex => intro _ s l e; simp at e
  | forIndexIn => intro _ s l e; simp at e
  | _ =>
    intro hm
    first
    | exact (Bool.noConfusion hm)
    | exact notNamed_cons (by simp)
    | (intro s l e; simp at e; done)
    | (exact notNamed_append_cons (by assumption) (by simp) (by simp) (by assumption) rfl)
    | (exact notNamed_append_der (by assumption) (by simp) (by assumption) (by assumption) rfl)
    | (apply_assumption; rfl)

theorem atNamed_not {ts : List Tok} (h : NotNamed ts) : atNamed ts = .ok false ts := by
  unfold atNamed
  split
  · exact absurd rfl (h _ _)
  · rfl

theorem atNamed_yes {s : String} {l : List Tok} :
    atNamed (.ident s :: .assign :: l) = .ok true (.ident s :: .assign :: l) := rfl

/-! ### Runs -/

/-- `n` reads the tokens up to `r` and returns `v`, if the bound on the depth is large enough. -/
def Run (n : NT) (ts : List Tok) (v : n.Val) (r : List Tok) : Prop :=
  ∀ᶠ k in atTop, parse k n ts = .ok v r

theorem Run.of {n : NT} {ts : List Tok} {v : n.Val} {r : List Tok}
    (h : ∀ᶠ k in atTop, step (parse k) n ts = .ok v r) : Run n ts v r := by
  obtain ⟨K, hK⟩ := eventually_atTop.1 h
  refine eventually_atTop.2 ⟨K + 1, fun k hk => ?_⟩
  obtain ⟨j, rfl⟩ := Nat.exists_eq_add_of_le' hk
  exact hK (j + K) (by omega)

/-- What is read when the tokens derived from a symbol come next. -/
def Comp : (s : Sym) → List Tok → s.Val → Prop
  | .expr, ts, v => ∀ r, Fol 10 r → Run .expr (ts ++ r) v r
  | .elses, ts, v => ∀ r, Fol 10 r → ∃ us, ts = .kElse :: us ∧ Run .expr (us ++ r) v r
  | .simple, ts, v => ∀ r, Fol 10 r → Run .simple (ts ++ r) v r
  | .logical, ts, v => ∀ r, Fol 9 r → Run .logical (ts ++ r) v r
  | .ors, ts, v => ∀ r, Fol 9 r →
      ∃ e es r', v = e :: es ∧ Run .lterm (ts ++ r) e r' ∧ Run .orTail r' es r
  | .lterm, ts, v => ∀ r, Fol 8 r → Run .lterm (ts ++ r) v r
  | .ands, ts, v => ∀ r, Fol 8 r →
      ∃ e es r', v = e :: es ∧ Run .lfactor (ts ++ r) e r' ∧ Run .andTail r' es r
  | .lfactor, ts, v => ∀ r, Fol 7 r → Run .lfactor (ts ++ r) v r
  | .relation, ts, v => ∀ r, Fol 7 r → Run .relation (ts ++ r) v r
  | .arith, ts, v => ∀ r w q, Fol 5 r → Run (.addTail v) r w q → Run .arith (ts ++ r) w q
  | .term, ts, v => ∀ r w q, Fol 4 r → Run (.mulTail v) r w q → Run .term (ts ++ r) w q
  | .factor, ts, v => ∀ r, Fol 4 r → Run .factor (ts ++ r) v r
  | .primary, ts, v => ∀ r, Fol 3 r → Run .primary (ts ++ r) v r
  | .group, ts, v => ∀ r w q, Run (.postfix v) r w q → Run .primary (ts ++ r) w q
  | .closed, ts, v => ∀ r w q, Run (.postfix v) r w q → Run .primary (ts ++ r) w q
  | .outputs, ts, v => ∀ r, Run .outputs (ts ++ .rpar :: r) v (.rpar :: r)
  | .outs, ts, v => ∀ r, Run .outputs (ts ++ .rpar :: r) v (.rpar :: r)
  | .exprs, ts, v => ∀ r, Fol 11 r → (∃ e, v = [e] ∧ Run .expr (ts ++ r) e r) ∨
      ∃ e es r', v = e :: es ∧ Run .expr (ts ++ r) e (.comma :: r') ∧ Run .exprs r' es r
  | .cref, ts, v => ∀ r, Fol 2 r → Run .cref (ts ++ r) v r
  | .path, ts, v => ∀ r, Fol 2 r →
      ∃ e es r', v = e :: es ∧ Run .entry (ts ++ r) e r' ∧ Run .crefTail r' es r
  | .entry, ts, v => ∀ r, Fol 1 r → Run .entry (ts ++ r) v r
  | .subscripts, ts, v => ∀ r, Run .subscripts (ts ++ r) v r
  | .subs, ts, v => ∀ r, Fol 11 r → Run .subs (ts ++ r) v r
  | .sub, ts, v => ∀ r, Fol 10 r → Run .sub (ts ++ r) v r
  | .callArgs, ts, v => ∀ r, Run .callArgs (ts ++ r) v r
  | .args, ts, v => ∀ r, Fol 12 r → Run .args (ts ++ r) v r
  | .nonFirst, ts, v => ∀ r, Fol 12 r → Run .nonFirst (ts ++ r) v r
  | .named, ts, v => (∃ s l, ts = .ident s :: .assign :: l) ∧
      ∀ r, Fol 11 r → Run .named (ts ++ r) v r
  | .namedArg, ts, v => (∃ s l, ts = .ident s :: .assign :: l) ∧
      ∀ r, Fol 10 r → Run .namedArg (ts ++ r) v r
  | .forIndices, ts, v => ∀ r, Fol 11 r → Run .forIndices (ts ++ r) v r
  | .forIndex, ts, v => ∀ r, Fol 10 r → Run .forIndex (ts ++ r) v r

/-- The loops stop. -/
theorem run_addTail {a : Ast} {r : List Tok} (h : Fol 6 r) : Run (.addTail a) r a r := by
  refine .of (.of_forall fun k => ?_)
  simp only [step, pAddTail, bind_run, acceptOp_not fun t ht => addOp_rank (h t ht)]
  rfl

theorem run_mulTail {a : Ast} {r : List Tok} (h : Fol 5 r) : Run (.mulTail a) r a r := by
  refine .of (.of_forall fun k => ?_)
  simp only [step, pMulTail, bind_run, acceptOp_not fun t ht => mulOp_rank (h t ht)]
  rfl

theorem run_powTail {a : Ast} {r : List Tok} (h : Fol 4 r) : Run (.powTail a) r a r := by
  refine .of (.of_forall fun k => ?_)
  simp only [step, pPowTail, bind_run, acceptOp_not fun t ht => powOp_rank (h t ht)]
  rfl

theorem run_orTail {r : List Tok} (h : Fol 9 r) : Run .orTail r [] r := by
  refine .of (.of_forall fun k => ?_)
  simp only [step, pOrTail, bind_run, accept_not (h.ne (t := .kOr) (by decide))]
  rfl

theorem run_andTail {r : List Tok} (h : Fol 8 r) : Run .andTail r [] r := by
  refine .of (.of_forall fun k => ?_)
  simp only [step, pAndTail, bind_run, accept_not (h.ne (t := .kAnd) (by decide))]
  rfl

theorem run_crefTail {r : List Tok} (h : Fol 2 r) : Run .crefTail r [] r := by
  refine .of (.of_forall fun k => ?_)
  simp only [step, pCrefTail, bind_run, accept_not (h.ne (t := .dot) (by decide))]
  rfl

theorem run_postfix {a : Ast} {r : List Tok} (h : Fol 3 r) : Run (.postfix a) r a r := by
  refine .of (.of_forall fun k => ?_)
  simp only [step, pPostfix, bind_run, isTok_not (h.ne (t := .lsquare) (by decide))]
  rfl

theorem head_ne {d : Dialect} {s : Sym} {ts r : List Tok} {v : s.Val} (h : Der d s ts v)
    (hs : s ≠ .outputs) {t : Tok} (ht : first s t = false) : (ts ++ r).head? ≠ some t := by
  obtain ⟨u, l, rfl, hu⟩ := (der_begins h).resolve_left fun h => hs h.1
  rintro e
  simp only [List.cons_append, List.head?_cons, Option.some.injEq] at e
  rw [e, ht] at hu
  cases hu

theorem arith_run {ts : List Tok} {v : Ast} (h : Comp .arith ts v) {r : List Tok} (hr : Fol 6 r) :
    Run .arith (ts ++ r) v r := h r v r (hr.mono (by decide)) (run_addTail hr)

theorem term_run {ts : List Tok} {v : Ast} (h : Comp .term ts v) {r : List Tok} (hr : Fol 5 r) :
    Run .term (ts ++ r) v r := h r v r (hr.mono (by decide)) (run_mulTail hr)

theorem notNamed_expr {d : Dialect} {ts r : List Tok} {e : Ast} (h : Der d .expr ts e)
    (hr : Fol 10 r) : NotNamed (ts ++ r) :=
  (der_notNamed h rfl).append (der_ne h (by simp)) (hr.ne (by decide))

theorem exprs_run {ts : List Tok} {v : List Ast} (h : Comp .exprs ts v) {r : List Tok}
    (hr : Fol 11 r) : Run .exprs (ts ++ r) v r := by
  rcases h r hr with ⟨e, rfl, h1⟩ | ⟨e, es, r', rfl, h1, h2⟩
  · refine .of ?_
    filter_upwards [h1] with k e1
    simp only [step, pExprs, bind_run, e1, accept_not (hr.ne (t := .comma) (by decide))]
    rfl
  · refine .of ?_
    filter_upwards [h1, h2] with k e1 e2
    simp only [step, pExprs, bind_run, e1, accept_yes, if_true, e2]
    rfl

theorem der_ident {d : Dialect} {s : Sym} {ts : List Tok} {v : s.Val} (h : Der d s ts v)
    (hs : s = .path ∨ s = .entry) : ∃ x l, ts = .ident x :: l := by
  obtain ⟨t, l, rfl, ht⟩ := (der_begins h).resolve_left fun h => by
    rcases hs with rfl | rfl <;> exact Sym.noConfusion h.1
  rcases hs with rfl | rfl <;> (cases t <;> simp [first] at ht; exact ⟨_, _, rfl⟩)

theorem comp {s : Sym} {ts : List Tok} {v : s.Val} (h : Der common s ts v) : Comp s ts v := by
  induction h with
  | expr h ih =>
    intro r hr
    refine .of ?_
    filter_upwards [ih r hr] with k e1
    simp only [step, pExpr, bind_run, accept_not (head_ne (r := r) h (by simp) (t := .kIf) rfl),
      Bool.false_eq_true, if_false, e1]
  | @ifElse cs c ts t us u _ _ _ ih1 ih2 ih3 =>
    intro r hr
    obtain ⟨us, rfl, h3⟩ := ih3 r hr
    refine .of ?_
    filter_upwards [ih1 (.kThen :: (ts ++ .kElse :: us ++ r)) (fol_cons.2 (by decide)),
      ih2 (.kElse :: (us ++ r)) (fol_cons.2 (by decide)), h3] with k e1 e2 e3
    simp only [List.append_assoc, List.cons_append] at e1
    simp only [step, pExpr, bind_run, List.append_assoc, List.cons_append, accept_yes, if_true, e1,
      expect_yes, e2, e3]
    rfl
  | «else» h ih =>
    intro r hr
    exact ⟨_, rfl, ih r hr⟩
  | elseIf h => exact h.elim
  | simple h ih =>
    intro r hr
    refine .of ?_
    filter_upwards [ih r (hr.mono (by decide))] with k e1
    simp only [step, pSimple, bind_run, e1, accept_not (hr.ne (t := .colon) (by decide))]
    rfl
  | @range ts e us f _ _ ih1 ih2 =>
    intro r hr
    refine .of ?_
    filter_upwards [ih1 (.colon :: (us ++ r)) (fol_cons.2 (by decide)),
      ih2 r (hr.mono (by decide))] with k e1 e2
    simp only [step, pSimple, bind_run, List.append_assoc, List.cons_append, e1, accept_yes, if_true,
      e2, accept_not (hr.ne (t := .colon) (by decide))]
    rfl
  | @rangeStep ts e us f vs g _ _ _ ih1 ih2 ih3 =>
    intro r hr
    refine .of ?_
    filter_upwards [ih1 (.colon :: (us ++ .colon :: (vs ++ r))) (fol_cons.2 (by decide)),
      ih2 (.colon :: (vs ++ r)) (fol_cons.2 (by decide)), ih3 r (hr.mono (by decide))]
      with k e1 e2 e3
    simp only [step, pSimple, bind_run, List.append_assoc, List.cons_append, e1, accept_yes, if_true,
      e2, e3]
    rfl
  | logical h ih =>
    intro r hr
    refine .of ?_
    filter_upwards [ih r (hr.mono (by decide)), run_orTail hr] with k e1 e2
    simp only [step, pLogical, bind_run, e1, e2]
    rfl
  | or h hl ih =>
    intro r hr
    obtain ⟨e, es, r', rfl, h1, h2⟩ := ih r hr
    obtain ⟨f, fs, rfl⟩ : ∃ f fs, es = f :: fs := by
      cases es with
      | nil => simp at hl
      | cons f fs => exact ⟨f, fs, rfl⟩
    refine .of ?_
    filter_upwards [h1, h2] with k e1 e2
    simp only [step, pLogical, bind_run, e1, e2]
    rfl
  | orsOne h ih =>
    intro r hr
    exact ⟨_, [], r, rfl, ih r (hr.mono (by decide)), run_orTail hr⟩
  | @orsCons ts e us es _ _ ih1 ih2 =>
    intro r hr
    obtain ⟨f, fs, r', rfl, h1, h2⟩ := ih2 r hr
    refine ⟨e, f :: fs, .kOr :: (us ++ r), rfl, ?_, ?_⟩
    · simpa using ih1 (.kOr :: (us ++ r)) (fol_cons.2 (by decide))
    · refine .of ?_
      filter_upwards [h1, h2] with k e1 e2
      simp only [step, pOrTail, bind_run, accept_yes, if_true, e1, e2]
      rfl
  | lterm h ih =>
    intro r hr
    refine .of ?_
    filter_upwards [ih r (hr.mono (by decide)), run_andTail hr] with k e1 e2
    simp only [step, pLterm, bind_run, e1, e2]
    rfl
  | and h hl ih =>
    intro r hr
    obtain ⟨e, es, r', rfl, h1, h2⟩ := ih r hr
    obtain ⟨f, fs, rfl⟩ : ∃ f fs, es = f :: fs := by
      cases es with
      | nil => simp at hl
      | cons f fs => exact ⟨f, fs, rfl⟩
    refine .of ?_
    filter_upwards [h1, h2] with k e1 e2
    simp only [step, pLterm, bind_run, e1, e2]
    rfl
  | andsOne h ih =>
    intro r hr
    exact ⟨_, [], r, rfl, ih r (hr.mono (by decide)), run_andTail hr⟩
  | @andsCons ts e us es _ _ ih1 ih2 =>
    intro r hr
    obtain ⟨f, fs, r', rfl, h1, h2⟩ := ih2 r hr
    refine ⟨e, f :: fs, .kAnd :: (us ++ r), rfl, ?_, ?_⟩
    · simpa using ih1 (.kAnd :: (us ++ r)) (fol_cons.2 (by decide))
    · refine .of ?_
      filter_upwards [h1, h2] with k e1 e2
      simp only [step, pAndTail, bind_run, accept_yes, if_true, e1, e2]
      rfl
  | lfactor h ih =>
    intro r hr
    refine .of ?_
    filter_upwards [ih r hr] with k e1
    simp only [step, pLfactor, bind_run, accept_not (head_ne (r := r) h (by simp) (t := .kNot) rfl),
      Bool.false_eq_true, if_false, e1]
  | not h ih =>
    intro r hr
    refine .of ?_
    filter_upwards [ih r hr] with k e1
    simp only [step, pLfactor, bind_run, List.cons_append, accept_yes, if_true, e1]
    rfl
  | relation h ih =>
    intro r hr
    refine .of ?_
    filter_upwards [arith_run ih (hr.mono (by decide))] with k e1
    simp only [step, pRelation, bind_run, e1, acceptOp_not fun t ht => relOp_rank (hr t ht)]
    rfl
  | @rel ts e us f t k hk h1 h2 ih1 ih2 =>
    intro r hr
    refine .of ?_
    filter_upwards [arith_run ih1 (r := t :: (us ++ r)) (fol_cons.2 (relToks_rank hk).ge),
      arith_run ih2 (r := r) (hr.mono (by decide))] with k e1 e2
    simp only [step, pRelation, bind_run, List.append_assoc, List.cons_append, e1,
      acceptOp_yes (relOp_iff.2 hk), e2]
    rfl
  | @arith ts e h ih =>
    intro r w q hr hw
    refine .of ?_
    filter_upwards [term_run ih hr, hw] with k e1 e2
    simp only [step, pArith, bind_run, accept_not (head_ne (r := r) h (by simp) (t := .minus) rfl),
      accept_not (head_ne (r := r) h (by simp) (t := .plus) rfl), Bool.false_eq_true, if_false, e1, e2]
  | plus h ih =>
    intro r w q hr hw
    refine .of ?_
    filter_upwards [term_run ih hr, hw] with k e1 e2
    simp only [step, pArith, bind_run, List.cons_append,
      accept_not (t := .minus) (r := .plus :: _) (by simp), accept_yes, Bool.false_eq_true, if_false,
      e1, e2]
  | minus h ih =>
    intro r w q hr hw
    refine .of ?_
    filter_upwards [term_run ih hr, hw] with k e1 e2
    simp only [step, pArith, bind_run, List.cons_append, accept_yes, if_true, e1, e2]
  | dotPlus h => exact h.elim
  | dotMinus h => exact h.elim
  | @add ts e us f t k hk h1 h2 ih1 ih2 =>
    intro r w q hr hw
    have h3 : Run (.addTail e) (t :: (us ++ r)) w q := by
      refine .of ?_
      filter_upwards [term_run ih2 hr, hw] with k e1 e2
      simp only [step, pAddTail, bind_run, acceptOp_yes (addOp_iff.2 hk), e1, e2]
    simpa using ih1 (t :: (us ++ r)) w q (fol_cons.2 (addToks_rank hk).ge) h3
  | @term ts e h ih =>
    intro r w q hr hw
    refine .of ?_
    filter_upwards [ih r hr, hw] with k e1 e2
    simp only [step, pTerm, bind_run, e1, e2]
  | @mul ts e us f t k hk h1 h2 ih1 ih2 =>
    intro r w q hr hw
    have h3 : Run (.mulTail e) (t :: (us ++ r)) w q := by
      refine .of ?_
      filter_upwards [ih2 r hr, hw] with k e1 e2
      simp only [step, pMulTail, bind_run, acceptOp_yes (mulOp_iff.2 hk), e1, e2]
    simpa using ih1 (t :: (us ++ r)) w q (fol_cons.2 (mulToks_rank hk).ge) h3
  | @factor ts e h ih =>
    intro r hr
    refine .of ?_
    filter_upwards [ih r (hr.mono (by decide)), run_powTail (a := e) hr] with k e1 e2
    simp only [step, pFactor, bind_run, e1, e2]
  | @pow ts e us f t k hk h1 h2 ih1 ih2 =>
    intro r hr
    have h3 : Run (.powTail e) (t :: (us ++ r)) (.op k [e, f]) r := by
      refine .of ?_
      filter_upwards [ih2 r (hr.mono (by decide)), run_powTail (a := .op k [e, f]) hr] with k e1 e2
      simp only [step, pPowTail, bind_run, acceptOp_yes (powOp_iff.2 hk), e1, e2]
    refine .of ?_
    filter_upwards [ih1 (t :: (us ++ r)) (fol_cons.2 (powToks_rank hk).ge), h3] with k e1 e2
    simp only [step, pFactor, bind_run, List.append_assoc, List.cons_append, e1, e2]
  | powChain h => exact h.elim
  | int => exact fun r _ => .of (.of_forall fun k => rfl)
  | real => exact fun r _ => .of (.of_forall fun k => rfl)
  | str => exact fun r _ => .of (.of_forall fun k => rfl)
  | true => exact fun r _ => .of (.of_forall fun k => rfl)
  | false => exact fun r _ => .of (.of_forall fun k => rfl)
  | @ref ts e h ih =>
    intro r hr
    obtain ⟨x, l, rfl⟩ : ∃ x l, ts = .ident x :: l := by
      cases h with
      | cref h => exact der_ident h (.inl rfl)
      | globalRef h => exact h.elim
    refine .of ?_
    filter_upwards [ih r (hr.mono (by decide))] with k e1
    simp only [List.cons_append] at e1
    simp only [step, pPrimary, bind_run, List.cons_append, e1,
      isTok_not (hr.ne (t := .lpar) (by decide)), Bool.false_eq_true, if_false]
    rfl
  | group h ih => exact fun r hr => ih r _ _ (run_postfix hr)
  | @groupSub ts e us ss h h' ih ih' =>
    intro r hr
    obtain ⟨l, rfl⟩ : ∃ l, us = .lsquare :: l := by cases h'; exact ⟨_, rfl⟩
    have h3 : Run (.postfix e) (.lsquare :: l ++ r) (.op .subscription (e :: ss)) r := by
      refine .of ?_
      filter_upwards [ih' r] with k e1
      simp only [List.cons_append] at e1
      simp only [step, pPostfix, bind_run, List.cons_append, isTok_yes, if_true, e1]
      rfl
    simpa using ih _ _ _ h3
  | closed h ih => exact fun r hr => ih r _ _ (run_postfix hr)
  | closedSub h => exact h.elim
  | @paren ts e h ih =>
    intro r w q hw
    refine .of ?_
    filter_upwards [ih r, hw] with k e1 e2
    simp only [step, pPrimary, bind_run, List.append_assoc, List.cons_append, List.nil_append, e1,
      expect_yes, e2]
  | @tuple ts es h hl ih =>
    intro r w q hw
    refine .of ?_
    filter_upwards [ih r, hw] with k e1 e2
    simp only [step, pPrimary, bind_run, List.append_assoc, List.cons_append, List.nil_append, e1,
      expect_yes]
    split
    · simp at hl
    · exact e2
  | @call ts c us as h h' ih ih' =>
    intro r w q hw
    obtain ⟨x, l, rfl⟩ : ∃ x l, ts = .ident x :: l := by
      cases h with
      | cref h => exact der_ident h (.inl rfl)
      | globalRef h => exact h.elim
    obtain ⟨m, rfl⟩ : ∃ m, us = .lpar :: m := by cases h' <;> exact ⟨_, rfl⟩
    refine .of ?_
    filter_upwards [ih (.lpar :: m ++ r) (fol_cons.2 (by decide)), ih' r, hw] with k e1 e2 e3
    simp only [List.cons_append] at e1 e2
    simp only [step, pPrimary, bind_run, List.append_assoc, List.cons_append, e1,
      isTok_yes, if_true, e2, e3]
  | @der us as h ih =>
    intro r w q hw
    refine .of ?_
    filter_upwards [ih r, hw] with k e1 e2
    simp only [step, pPrimary, bind_run, List.cons_append, e1, e2]
  | @array ts es h ih =>
    intro r w q hw
    rcases ih (.rcurly :: r) (fol_cons.2 (by decide)) with ⟨e, rfl, h1⟩ | ⟨e, es', r', rfl, h1, h2⟩
    · refine .of ?_
      filter_upwards [h1, hw] with k e1 e2
      simp only [step, pPrimary, bind_run, List.append_assoc, List.cons_append, List.nil_append, e1,
        accept_not (t := .comma) (r := .rcurly :: _) (by simp),
        accept_not (t := .kFor) (r := .rcurly :: _) (by simp), Bool.false_eq_true, if_false,
        expect_yes, e2]
    · refine .of ?_
      filter_upwards [h1, h2, hw] with k e1 e2 e3
      simp only [step, pPrimary, bind_run, List.append_assoc, List.cons_append, List.nil_append, e1,
        accept_yes, if_true, e2, expect_yes, e3]
  | @generator ts e us is h h' ih ih' =>
    intro r w q hw
    refine .of ?_
    filter_upwards [ih (.kFor :: (us ++ .rcurly :: r)) (fol_cons.2 (by decide)),
      ih' (.rcurly :: r) (fol_cons.2 (by decide)), hw] with k e1 e2 e3
    simp only [step, pPrimary, bind_run, List.append_assoc, List.cons_append, List.nil_append, e1,
      accept_not (t := .comma) (r := .kFor :: _) (by simp), Bool.false_eq_true, if_false,
      accept_yes, if_true, e2, expect_yes, e3]
  | outputsNone =>
    intro r
    refine .of (.of_forall fun k => ?_)
    simp only [step, pOutputs, bind_run, List.nil_append, isTok_yes, if_true]
    rfl
  | outputs h ih => exact ih
  | @outsOne ts e h ih =>
    intro r
    have h0 : Run .outputs (.rpar :: r) [] (.rpar :: r) := by
      refine .of (.of_forall fun k => ?_)
      simp only [step, pOutputs, bind_run, isTok_yes, if_true]
      rfl
    refine .of ?_
    filter_upwards [ih (.rpar :: r) (fol_cons.2 (by decide)), h0] with k e1 e2
    simp only [step, pOutputs, bind_run, isTok_not (head_ne h (by simp) (t := .rpar) rfl),
      accept_not (head_ne h (by simp) (t := .comma) rfl), Bool.false_eq_true, if_false, e1,
      accept_not (t := .comma) (r := .rpar :: _) (by simp), e2]
    rfl
  | @outsCons ts e us es h h' ih ih' =>
    intro r
    refine .of ?_
    filter_upwards [ih (.comma :: (us ++ .rpar :: r)) (fol_cons.2 (by decide)), ih' r] with k e1 e2
    simp only [step, pOutputs, bind_run, List.append_assoc, List.cons_append,
      isTok_not (head_ne h (by simp) (t := .rpar) rfl),
      accept_not (head_ne h (by simp) (t := .comma) rfl), Bool.false_eq_true, if_false, e1,
      accept_yes, e2]
    rfl
  | @outsSkip us es h ih =>
    intro r
    refine .of ?_
    filter_upwards [ih r] with k e1
    simp only [step, pOutputs, bind_run, List.cons_append,
      isTok_not (t := .rpar) (r := .comma :: _) (by simp), accept_yes, Bool.false_eq_true, if_false,
      if_true, e1]
    rfl
  | outsLast h => exact h.elim
  | outsSkipLast h => exact h.elim
  | outsLoose h => exact h.elim
  | outsTrailing h => exact h.elim
  | outsComma h => exact h.elim
  | exprsOne h ih => exact fun r hr => .inl ⟨_, rfl, ih r (hr.mono (by decide))⟩
  | @exprsCons ts e us es h h' ih ih' =>
    intro r hr
    refine .inr ⟨e, es, us ++ r, rfl, ?_, exprs_run ih' hr⟩
    simpa using ih (.comma :: (us ++ r)) (fol_cons.2 (by decide))
  | @cref ts es h ih =>
    intro r hr
    obtain ⟨e, es, r', rfl, h1, h2⟩ := ih r hr
    refine .of ?_
    filter_upwards [h1, h2] with k e1 e2
    simp only [step, pCref, bind_run, accept_not (head_ne (r := r) h (by simp) (t := .dot) rfl), e1, e2]
    rfl
  | globalRef h => exact h.elim
  | pathOne h ih =>
    exact fun r hr => ⟨_, [], r, rfl, ih r (hr.mono (by decide)), run_crefTail hr⟩
  | @pathCons ts e us es h h' ih ih' =>
    intro r hr
    obtain ⟨f, fs, r', rfl, h1, h2⟩ := ih' r hr
    refine ⟨e, f :: fs, .dot :: (us ++ r), rfl, ?_, ?_⟩
    · simpa using ih (.dot :: (us ++ r)) (fol_cons.2 (by decide))
    · refine .of ?_
      filter_upwards [h1, h2] with k e1 e2
      simp only [step, pCrefTail, bind_run, accept_yes, if_true, e1, e2]
      rfl
  | entry =>
    intro r hr
    refine .of (.of_forall fun k => ?_)
    simp only [step, pEntry, bind_run, List.cons_append, List.nil_append, ident_yes,
      isTok_not (hr.ne (t := .lsquare) (by decide)), Bool.false_eq_true, if_false]
    rfl
  | @entrySub s us ss h ih =>
    intro r hr
    obtain ⟨l, rfl⟩ : ∃ l, us = .lsquare :: l := by cases h; exact ⟨_, rfl⟩
    refine .of ?_
    filter_upwards [ih r] with k e1
    simp only [List.cons_append] at e1
    simp only [step, pEntry, bind_run, List.cons_append, ident_yes, isTok_yes, if_true, e1]
    rfl
  | @subscripts ts ss h ih =>
    intro r
    refine .of ?_
    filter_upwards [ih (.rsquare :: r) (fol_cons.2 (by decide))] with k e1
    simp only [step, pSubscripts, bind_run, List.append_assoc, List.cons_append, List.nil_append,
      expect_yes, e1]
    rfl
  | subsOne h ih =>
    intro r hr
    refine .of ?_
    filter_upwards [ih r (hr.mono (by decide))] with k e1
    simp only [step, pSubs, bind_run, e1, accept_not (hr.ne (t := .comma) (by decide)),
      Bool.false_eq_true, if_false]
    rfl
  | @subsCons ts e us es h h' ih ih' =>
    intro r hr
    refine .of ?_
    filter_upwards [ih (.comma :: (us ++ r)) (fol_cons.2 (by decide)), ih' r hr] with k e1 e2
    simp only [step, pSubs, bind_run, List.append_assoc, List.cons_append, e1, accept_yes, if_true, e2]
    rfl
  | subAll =>
    intro r hr
    refine .of (.of_forall fun k => ?_)
    simp only [step, pSub, bind_run, List.cons_append, List.nil_append, accept_yes, if_true]
    rfl
  | sub h ih =>
    intro r hr
    refine .of ?_
    filter_upwards [ih r hr] with k e1
    simp only [step, pSub, bind_run, accept_not (head_ne (r := r) h (by simp) (t := .colon) rfl),
      Bool.false_eq_true, if_false, e1]
    rfl
  | callNone =>
    intro r
    refine .of (.of_forall fun k => ?_)
    simp only [step, pCallArgs, bind_run, List.cons_append, List.nil_append, expect_yes, isTok_yes,
      if_true]
    rfl
  | callArgs h ih =>
    intro r
    refine .of ?_
    filter_upwards [ih (.rpar :: r) (fol_cons.2 (by decide))] with k e1
    simp only [step, pCallArgs, bind_run, List.append_assoc, List.cons_append, List.nil_append,
      expect_yes, isTok_not (head_ne h (by simp) (t := .rpar) rfl), Bool.false_eq_true, if_false, e1]
    rfl
  | argsNamed h ih =>
    intro r hr
    obtain ⟨⟨s, l, rfl⟩, h1⟩ := ih
    refine .of ?_
    filter_upwards [h1 r (hr.mono (by decide))] with k e1
    simp only [List.cons_append] at e1
    simp only [step, pArgs, bind_run, List.cons_append, atNamed_yes, if_true, e1]
  | argsOne h ih =>
    intro r hr
    have hr' : Fol 10 r := hr.mono (by decide)
    refine .of ?_
    filter_upwards [ih r hr'] with k e1
    simp only [step, pArgs, bind_run, atNamed_not (notNamed_expr h hr'), e1,
      accept_not (hr.ne (t := .kFor) (by decide)), accept_not (hr.ne (t := .comma) (by decide)),
      Bool.false_eq_true, if_false]
    rfl
  | @argsFor ts e us is h h' ih ih' =>
    intro r hr
    have hf : Fol 10 (.kFor :: (us ++ r)) := fol_cons.2 (by decide)
    refine .of ?_
    filter_upwards [ih _ hf, ih' r (hr.mono (by decide))] with k e1 e2
    simp only [step, pArgs, bind_run, List.append_assoc, List.cons_append,
      atNamed_not (notNamed_expr h hf), e1, accept_yes, if_true, Bool.false_eq_true, if_false, e2]
    rfl
  | @argsCons ts e us as h h' ih ih' =>
    intro r hr
    have hf : Fol 10 (.comma :: (us ++ r)) := fol_cons.2 (by decide)
    refine .of ?_
    filter_upwards [ih _ hf, ih' r hr] with k e1 e2
    simp only [step, pArgs, bind_run, List.append_assoc, List.cons_append,
      atNamed_not (notNamed_expr h hf), e1,
      accept_not (t := .kFor) (r := .comma :: _) (by simp), accept_yes, if_true,
      Bool.false_eq_true, if_false, e2]
    rfl
  | nonFirstNamed h ih =>
    intro r hr
    obtain ⟨⟨s, l, rfl⟩, h1⟩ := ih
    refine .of ?_
    filter_upwards [h1 r (hr.mono (by decide))] with k e1
    simp only [List.cons_append] at e1
    simp only [step, pNonFirst, bind_run, List.cons_append, atNamed_yes, if_true, e1]
  | nonFirstOne h ih =>
    intro r hr
    have hr' : Fol 10 r := hr.mono (by decide)
    refine .of ?_
    filter_upwards [ih r hr'] with k e1
    simp only [step, pNonFirst, bind_run, atNamed_not (notNamed_expr h hr'), e1,
      accept_not (hr.ne (t := .comma) (by decide)), Bool.false_eq_true, if_false]
    rfl
  | @nonFirstCons ts e us as h h' ih ih' =>
    intro r hr
    have hf : Fol 10 (.comma :: (us ++ r)) := fol_cons.2 (by decide)
    refine .of ?_
    filter_upwards [ih _ hf, ih' r hr] with k e1 e2
    simp only [step, pNonFirst, bind_run, List.append_assoc, List.cons_append,
      atNamed_not (notNamed_expr h hf), e1, accept_yes, if_true, Bool.false_eq_true, if_false, e2]
    rfl
  | namedOne h ih =>
    obtain ⟨h0, h1⟩ := ih
    refine ⟨h0, fun r hr => .of ?_⟩
    filter_upwards [h1 r (hr.mono (by decide))] with k e1
    simp only [step, pNamed, bind_run, e1, accept_not (hr.ne (t := .comma) (by decide)),
      Bool.false_eq_true, if_false]
    rfl
  | @namedCons ts a us as h h' ih ih' =>
    obtain ⟨⟨s, l, rfl⟩, h1⟩ := ih
    refine ⟨⟨s, _, rfl⟩, fun r hr => .of ?_⟩
    filter_upwards [h1 (.comma :: (us ++ r)) (fol_cons.2 (by decide)), ih'.2 r hr] with k e1 e2
    simp only [List.cons_append] at e1
    simp only [step, pNamed, bind_run, List.append_assoc, List.cons_append, e1, accept_yes, if_true, e2]
    rfl
  | namedArg h ih =>
    refine ⟨⟨_, _, rfl⟩, fun r hr => .of ?_⟩
    filter_upwards [ih r hr] with k e1
    simp only [step, pNamedArg, bind_run, List.cons_append, ident_yes, expect_yes, e1]
    rfl
  | forOne h ih =>
    intro r hr
    refine .of ?_
    filter_upwards [ih r (hr.mono (by decide))] with k e1
    simp only [step, pForIndices, bind_run, e1, accept_not (hr.ne (t := .comma) (by decide)),
      Bool.false_eq_true, if_false]
    rfl
  | @forCons ts e us es h h' ih ih' =>
    intro r hr
    refine .of ?_
    filter_upwards [ih (.comma :: (us ++ r)) (fol_cons.2 (by decide)), ih' r hr] with k e1 e2
    simp only [step, pForIndices, bind_run, List.append_assoc, List.cons_append, e1, accept_yes,
      if_true, e2]
    rfl
  | forIndex =>
    intro r hr
    refine .of (.of_forall fun k => ?_)
    simp only [step, pForIndex, bind_run, List.cons_append, List.nil_append, ident_yes,
      accept_not (hr.ne (t := .kIn) (by decide)), Bool.false_eq_true, if_false]
    rfl
  | forIndexIn h ih =>
    intro r hr
    refine .of ?_
    filter_upwards [ih r hr] with k e1
    simp only [step, pForIndex, bind_run, List.cons_append, ident_yes, accept_yes, if_true, e1]
    rfl

/-- What derives from the common grammar is read. -/
theorem parseExpression_complete {ts r : List Tok} {e : Ast} (h : Der common .expr ts e)
    (hr : Fol 10 r) : parseExpression (ts ++ r) = .ok e r := by
  obtain ⟨k, hk⟩ := (comp h r hr).exists
  rw [parseExpression_eq (k := k) (by rw [hk]; simp), hk]

end Marco.Parse
