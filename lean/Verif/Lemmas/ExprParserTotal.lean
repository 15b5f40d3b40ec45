import Verif.Lemmas.ExprParser

/-!
# Lemmas about the expression parser: it terminates, and the bound on the depth is irrelevant
-/

namespace Marco.Parse
open Marco.Spec

/-! ### The first tokens of what is derived -/

/-- A token that may begin a primary expression. -/
def startsPrimary : Tok → Bool
  | .ident _ | .int _ | .real _ | .str _ | .kTrue | .kFalse | .kDer | .lpar | .lcurly | .dot => true
  | _ => false

/-- A token that may begin an arithmetic expression. -/
def startsArith (t : Tok) : Bool :=
  startsPrimary t || t = .plus || t = .minus || t = .plusEW || t = .minusEW

/-- A token that may begin an expression. -/
def startsExpr (t : Tok) : Bool := startsArith t || t = .kNot || t = .kIf

/-- The first token of a sentence, depending on the symbol. -/
def first : Sym → Tok → Bool
  | .expr => startsExpr
  | .elses => fun t => t = .kElse || t = .kElseIf
  | .simple | .logical | .ors | .lterm | .ands | .lfactor => fun t => startsArith t || t = .kNot
  | .relation | .arith => startsArith
  | .term | .factor | .primary => startsPrimary
  | .group => fun t => t = .lpar
  | .closed => startsPrimary
  | .outputs => fun t => startsExpr t || t = .comma
  | .outs => fun t => startsExpr t || t = .comma
  | .exprs => startsExpr
  | .cref => fun t => match t with | .ident _ | .dot => true | _ => false
  | .path | .entry | .named | .namedArg | .forIndices | .forIndex =>
    fun t => match t with | .ident _ => true | _ => false
  | .subscripts => fun t => t = .lsquare
  | .subs | .sub => fun t => startsExpr t || t = .colon
  | .callArgs => fun t => t = .lpar
  | .args | .nonFirst => startsExpr

/-- The sentence begins with a token of its first set. -/
def Begins (s : Sym) (ts : List Tok) : Prop := ∃ t l, ts = t :: l ∧ first s t = true

theorem Begins.append {s s' : Sym} {ts us : List Tok} (h : Begins s ts)
    (hf : ∀ t, first s t = true → first s' t = true) : Begins s' (ts ++ us) := by
  obtain ⟨t, l, rfl, h⟩ := h
  exact ⟨t, l ++ us, rfl, hf t h⟩

theorem Begins.mono {s s' : Sym} {ts : List Tok} (h : Begins s ts)
    (hf : ∀ t, first s t = true → first s' t = true) : Begins s' ts := by
  obtain ⟨t, l, rfl, h⟩ := h
  exact ⟨t, l, rfl, hf t h⟩

theorem Begins.ne {s : Sym} {ts : List Tok} (h : Begins s ts) : ts ≠ [] := by
  obtain ⟨t, l, rfl, h⟩ := h
  simp

theorem begins_append {s s' : Sym} {ts us : List Tok} (h : (s = .outputs ∧ ts = []) ∨ Begins s ts)
    (hs : s ≠ .outputs) (hf : ∀ t, first s t = true → first s' t = true) : Begins s' (ts ++ us) :=
  (h.resolve_left fun h => hs h.1).append hf

theorem begins_mono {s s' : Sym} {ts : List Tok} (h : (s = .outputs ∧ ts = []) ∨ Begins s ts)
    (hs : s ≠ .outputs) (hf : ∀ t, first s t = true → first s' t = true) : Begins s' ts :=
  (h.resolve_left fun h => hs h.1).mono hf

theorem der_begins {d : Dialect} {s : Sym} {ts : List Tok} {v : s.Val} (h : Der d s ts v) :
    (s = .outputs ∧ ts = []) ∨ Begins s ts := by
  induction h with
  | outputsNone => exact .inl ⟨rfl, rfl⟩
  | _ =>
    right
    first
    | exact ⟨_, _, rfl, by simp [first, startsExpr, startsArith, startsPrimary]⟩
    | (refine begins_append (by assumption) (by simp) fun t => ?_
       cases t <;> simp [first, startsExpr, startsArith, startsPrimary])
    | (refine begins_mono (by assumption) (by simp) fun t => ?_
       cases t <;> simp [first, startsExpr, startsArith, startsPrimary])

theorem der_ne {d : Dialect} {s : Sym} {ts : List Tok} {v : s.Val} (h : Der d s ts v)
    (hs : s ≠ .outputs) : ts ≠ [] :=
  ((der_begins h).resolve_left fun h => hs h.1).ne

/-! ### The bound on the depth is irrelevant -/

/-- `y` is the outcome `x`, unless the depth has been exceeded in `x`. -/
def Res.Le {α : Type} (x y : Res α) : Prop := x = .more ∨ x = y

theorem Res.Le.rfl {α : Type} {x : Res α} : x.Le x := .inr (Eq.refl _)

theorem bind_le {α β : Type} {x y : P α} {f g : α → P β} (hx : ∀ ts, (x ts).Le (y ts))
    (hf : ∀ a ts, (f a ts).Le (g a ts)) (ts : List Tok) : ((x >>= f) ts).Le ((y >>= g) ts) := by
  rw [bind_run, bind_run]
  rcases hx ts with h | h
  · rw [h]; exact .inl (Eq.refl _)
  · rw [h]
    split
    · exact hf _ _
    · exact .rfl
    · exact .rfl
    · exact .rfl

theorem step_le {f g : (n : NT) → P n.Val} (h : ∀ n ts, (f n ts).Le (g n ts)) :
    ∀ n ts, (step f n ts).Le (step g n ts) := by
  intro n
  cases n <;>
    simp only [step, pExpr, pSimple, pLogical, pOrTail, pLterm, pAndTail, pLfactor, pRelation, pArith,
      pAddTail, pTerm, pMulTail, pFactor, pPowTail, pPostfix, pOutputs, pExprs, pCref,
      pCrefTail, pEntry, pSubscripts, pSubs, pSub, pCallArgs, pArgs, pNonFirst, pNamed, pNamedArg,
      pForIndices, pForIndex]
  case primary =>
    intro ts
    unfold pPrimary
    split
    all_goals first
    | exact .rfl
    | (refine bind_le ?_ (fun a => ?_) _)
    all_goals
      repeat' first
      | exact h _
      | exact fun ts => .rfl
      | (refine bind_le ?_ fun a => ?_)
      | split
  all_goals
    repeat' first
    | exact h _
    | exact fun ts => .rfl
    | (refine bind_le ?_ fun a => ?_)
    | split

theorem parse_le : ∀ k n ts, (parse k n ts).Le (parse (k + 1) n ts)
  | 0, _, _ => .inl rfl
  | k + 1, n, ts => step_le (parse_le k) n ts

theorem parse_stable {k k' : Nat} (hk : k ≤ k') {n : NT} {ts : List Tok} (h : parse k n ts ≠ .more) :
    parse k' n ts = parse k n ts := by
  induction hk with
  | refl => rfl
  | step _ ih =>
    rcases parse_le _ n ts with h' | h'
    · rw [ih] at h'; exact absurd h' h
    · rw [← h', ih]

/-! ### Termination -/

/-- The depth of the calls that read no token. -/
def lvl : NT → Nat
  | .expr => 11 | .simple => 10 | .logical => 9 | .orTail => 0 | .lterm => 8 | .andTail => 0
  | .lfactor => 7 | .relation => 6 | .arith => 5 | .addTail _ => 0 | .term => 4 | .mulTail _ => 0
  | .factor => 3 | .powTail _ => 0 | .primary => 2 | .postfix _ => 1
  | .outputs => 12 | .exprs => 12 | .cref => 1 | .crefTail => 0 | .entry => 0
  | .subscripts => 0 | .subs => 13 | .sub => 12
  | .callArgs => 0 | .args => 12 | .nonFirst => 12 | .named => 1 | .namedArg => 0
  | .forIndices => 1 | .forIndex => 0

section
variable {α β : Type}

theorem bind_no {x : P α} {f : α → P β} {ts : List Tok} (h1 : x ts ≠ .more)
    (h2 : ∀ a r, x ts = .ok a r → f a r ≠ .more) : (x >>= f) ts ≠ .more := by
  rw [bind_run]
  cases h : x ts with
  | ok a r => exact h2 a r h
  | error => simp
  | ub => simp
  | more => exact absurd h h1

theorem ok_no {a : α} {ts : List Tok} : Res.ok a ts ≠ .more := by simp

theorem ub_no : (Res.ub : Res α) ≠ .more := by simp

theorem pure_no {a : α} {ts : List Tok} : (pure a : P α) ts ≠ .more := by
  show Res.ok a ts ≠ _
  simp

theorem crash_no {ts : List Tok} : (crash : P α) ts ≠ .more := by
  unfold crash
  simp

theorem bind_accept_no {t : Tok} {f : Bool → P β} {ts : List Tok}
    (h1 : ∀ r, r.length + 1 = ts.length → f true r ≠ .more) (h2 : f false ts ≠ .more) :
    (accept t >>= f) ts ≠ .more := by
  refine bind_no ?_ fun a r h => ?_
  · unfold accept
    split
    · split <;> simp
    · simp
  · rcases accept_ok.1 h with ⟨rfl, rfl⟩ | ⟨rfl, rfl, -⟩
    · exact h1 _ (by simp)
    · exact h2

theorem bind_expect_no {t : Tok} {f : Unit → P β} {ts : List Tok}
    (h1 : ∀ r, r.length + 1 = ts.length → f () r ≠ .more) : (expect t >>= f) ts ≠ .more := by
  refine bind_no ?_ fun a r h => ?_
  · unfold expect
    split
    · split <;> simp
    · simp
  · obtain rfl := expect_ok.1 h
    exact h1 _ (by simp)

theorem bind_ident_no {f : String → P β} {ts : List Tok}
    (h1 : ∀ s r, r.length + 1 = ts.length → f s r ≠ .more) : (ident >>= f) ts ≠ .more := by
  refine bind_no ?_ fun a r h => ?_
  · unfold ident
    split <;> simp
  · obtain rfl := ident_ok.1 h
    exact h1 _ _ (by simp)

theorem bind_isTok_no {t : Tok} {f : Bool → P β} {ts : List Tok} (h1 : f true ts ≠ .more)
    (h2 : f false ts ≠ .more) : (isTok (· == t) >>= f) ts ≠ .more := by
  refine bind_no (by unfold isTok; simp) fun a r h => ?_
  obtain ⟨rfl, -⟩ := isTok_ok.1 h
  cases a
  · exact h2
  · exact h1

theorem bind_atNamed_no {f : Bool → P β} {ts : List Tok} (h1 : f true ts ≠ .more)
    (h2 : f false ts ≠ .more) : (atNamed >>= f) ts ≠ .more := by
  refine bind_no (by unfold atNamed; simp) fun a r h => ?_
  obtain rfl := atNamed_ok h
  cases a
  · exact h2
  · exact h1

theorem bind_acceptOp_no {o : Tok → Option Op} {f : Option Op → P β} {ts : List Tok}
    (h1 : ∀ k r, r.length + 1 = ts.length → f (some k) r ≠ .more) (h2 : f none ts ≠ .more) :
    (acceptOp o >>= f) ts ≠ .more := by
  refine bind_no ?_ fun a r h => ?_
  · unfold acceptOp
    split
    · split <;> simp
    · simp
  · rcases acceptOp_ok.1 h with ⟨t, k, -, rfl, rfl⟩ | ⟨rfl, rfl, -⟩
    · exact h1 _ _ (by simp)
    · exact h2

theorem bind_self_no {self : (n : NT) → P n.Val} (hs : SoundFor self) {n : NT} {f : n.Val → P β}
    {ts : List Tok} (h1 : self n ts ≠ .more) (h2 : ∀ a r, r.length ≤ ts.length → f a r ≠ .more) :
    (self n >>= f) ts ≠ .more := by
  refine bind_no h1 fun a r h => h2 a r ?_
  obtain ⟨us, rfl, -⟩ := hs _ _ _ _ h
  simp

theorem bind_expr_no {self : (n : NT) → P n.Val} (hs : SoundFor self) {f : Ast → P β}
    {ts : List Tok} (h1 : self .expr ts ≠ .more)
    (h2 : ∀ a r, r.length + 1 ≤ ts.length → f a r ≠ .more) : (self .expr >>= f) ts ≠ .more := by
  refine bind_no h1 fun a r h => h2 a r ?_
  obtain ⟨us, rfl, d⟩ := hs _ _ _ _ h
  have := List.length_pos_iff.2 (der_ne d (by simp))
  simp only [List.length_append]
  omega

end

theorem step_total {self : (n : NT) → P n.Val} (hs : SoundFor self) (n : NT) (ts : List Tok)
    (h : ∀ m us, 20 * us.length + lvl m < 20 * ts.length + lvl n → self m us ≠ .more) :
    step self n ts ≠ .more := by
  cases n <;>
    simp only [step, pExpr, pSimple, pLogical, pOrTail, pLterm, pAndTail, pLfactor, pRelation, pArith,
      pAddTail, pTerm, pMulTail, pFactor, pPowTail, pPostfix, pOutputs, pExprs, pCref,
      pCrefTail, pEntry, pSubscripts, pSubs, pSub, pCallArgs, pArgs, pNonFirst, pNamed, pNamedArg,
      pForIndices, pForIndex]
  case primary =>
    unfold pPrimary
    split
    all_goals
      try simp only [List.length_cons] at h
      repeat' first
      | exact pure_no
      | exact crash_no
      | exact ok_no
      | exact ub_no
      | refine bind_expect_no fun r hr => ?_
      | refine bind_accept_no (fun r hr => ?_) ?_
      | refine bind_isTok_no ?_ ?_
      | refine bind_expr_no hs (h _ _ ?_) fun a r hr => ?_
      | refine bind_self_no hs (h _ _ ?_) fun a r hr => ?_
      | refine h _ _ ?_
      | (simp only [lvl, List.length_cons] at *; omega)
      | simp only [if_true, Bool.false_eq_true, if_false]
      | split
  all_goals
    repeat' first
    | exact pure_no
    | refine bind_expect_no fun r hr => ?_
    | refine bind_accept_no (fun r hr => ?_) ?_
    | refine bind_isTok_no ?_ ?_
    | refine bind_atNamed_no ?_ ?_
    | refine bind_ident_no fun s r hr => ?_
    | refine bind_acceptOp_no (fun k r hr => ?_) ?_
    | refine bind_expr_no hs (h _ _ ?_) fun a r hr => ?_
    | refine bind_self_no hs (h _ _ ?_) fun a r hr => ?_
    | refine h _ _ ?_
    | (simp only [lvl]; omega)
    | simp only [if_true, Bool.false_eq_true, if_false]
    | split

theorem parse_total : ∀ k n ts, 20 * ts.length + lvl n < k → parse k n ts ≠ .more
  | 0, _, _, h => by omega
  | k + 1, n, ts, h => by
    refine step_total (parse_sound k) n ts fun m us hm => parse_total k m us (by omega)

theorem parseExpression_ne (ts : List Tok) : parseExpression ts ≠ .more :=
  parse_total _ _ _ (by simp only [lvl]; omega)

/-- If some depth gives a result, it is that of `parseExpression`. -/
theorem parseExpression_eq {k : Nat} {ts : List Tok} (h : parse k .expr ts ≠ .more) :
    parseExpression ts = parse k .expr ts := by
  rcases Nat.le_total k (20 * (ts.length + 1)) with hk | hk
  · exact parse_stable hk h
  · exact (parse_stable hk (parseExpression_ne ts)).symm

end Marco.Parse
