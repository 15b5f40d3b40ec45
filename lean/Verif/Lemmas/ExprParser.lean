import Verif.Spec.Grammar

/-!
# Lemmas about the expression parser: what is accepted
-/

namespace Marco.Parse
open Marco.Spec

/-! ### Inversion -/

theorem bind_run {α β : Type} (x : P α) (f : α → P β) (ts : List Tok) :
    (x >>= f) ts = match x ts with
      | .ok a r => f a r
      | .error => .error
      | .ub => .ub
      | .more => .more := rfl

theorem bind_ok {α β : Type} {x : P α} {f : α → P β} {ts : List Tok} {v : β} {r : List Tok} :
    (x >>= f) ts = .ok v r ↔ ∃ a r', x ts = .ok a r' ∧ f a r' = .ok v r := by
  rw [bind_run]
  cases h : x ts <;> simp

theorem pure_ok {α : Type} {a v : α} {ts r : List Tok} :
    (pure a : P α) ts = .ok v r ↔ a = v ∧ ts = r := by
  show Res.ok a ts = .ok v r ↔ _
  simp

theorem accept_ok {t : Tok} {ts r : List Tok} {b : Bool} :
    accept t ts = .ok b r ↔ (b = true ∧ ts = t :: r) ∨ (b = false ∧ ts = r ∧ ts.head? ≠ some t) := by
  unfold accept
  cases ts with
  | nil => simp [eq_comm]
  | cons u l =>
    by_cases h : u = t
    · subst h; simp [eq_comm]
    · have h' : ¬ t = u := fun e => h e.symm
      simp [h, h', eq_comm]

theorem expect_ok {t : Tok} {ts r : List Tok} {b : Unit} : expect t ts = .ok b r ↔ ts = t :: r := by
  unfold expect
  cases ts with
  | nil => simp
  | cons u l =>
    by_cases h : u = t
    · subst h; simp
    · simp [h]

theorem ident_ok {ts r : List Tok} {s : String} : ident ts = .ok s r ↔ ts = .ident s :: r := by
  unfold ident
  split
  · simp
  · rename_i h
    simp only [reduceCtorEq, false_iff]
    intro h'
    exact h _ _ h'

theorem isTok_ok {t : Tok} {ts r : List Tok} {b : Bool} :
    isTok (· == t) ts = .ok b r ↔ ts = r ∧ (b = true ↔ ts.head? = some t) := by
  unfold isTok
  cases ts with
  | nil => cases b <;> simp [eq_comm]
  | cons u l => cases b <;> by_cases h : u = t <;> simp [h]

theorem atNamed_ok {ts r : List Tok} {b : Bool} : atNamed ts = .ok b r → ts = r := by
  unfold atNamed
  simp only [Res.ok.injEq]
  exact fun h => h.2

theorem acceptOp_ok {f : Tok → Option Op} {ts r : List Tok} {o : Option Op} :
    acceptOp f ts = .ok o r ↔
      (∃ t k, f t = some k ∧ o = some k ∧ ts = t :: r) ∨
      (o = none ∧ ts = r ∧ ∀ t ∈ ts.head?, f t = none) := by
  unfold acceptOp
  cases ts with
  | nil => simp [eq_comm]
  | cons u l =>
    cases h : f u with
    | none =>
      simp only [h, Res.ok.injEq]
      constructor
      · rintro ⟨rfl, rfl⟩
        right
        simp [h]
      · rintro (⟨t, k, h1, h2, h3⟩ | ⟨h1, h2, h3⟩)
        · cases h3
          rw [h] at h1
          cases h1
        · exact ⟨h1.symm, h2⟩
    | some k =>
      simp only [h, Res.ok.injEq]
      constructor
      · rintro ⟨rfl, rfl⟩
        exact .inl ⟨u, k, h, rfl, rfl⟩
      · rintro (⟨t, k', h1, h2, h3⟩ | ⟨h1, h2, h3⟩)
        · cases h3
          rw [h] at h1
          cases h1
          exact ⟨h2.symm, rfl⟩
        · have := h3 u rfl
          rw [h] at this
          cases this

/-! ### The operators -/

theorem relOp_iff {t : Tok} {k : Op} : relOp t = some k ↔ (t, k) ∈ relToks := by
  unfold relToks
  cases t <;> simp [relOp, eq_comm]

theorem addOp_iff {t : Tok} {k : Op} : addOp t = some k ↔ (t, k) ∈ addToks := by
  unfold addToks
  cases t <;> simp [addOp, eq_comm]

theorem mulOp_iff {t : Tok} {k : Op} : mulOp t = some k ↔ (t, k) ∈ mulToks := by
  unfold mulToks
  cases t <;> simp [mulOp, eq_comm]

theorem powOp_iff {t : Tok} {k : Op} : powOp t = some k ↔ (t, k) ∈ powToks := by
  unfold powToks
  cases t <;> simp [powOp, eq_comm]

/-! ### What is accepted derives from the grammar -/

/-- The tokens read by `n` and the value it returns. -/
def Reads : (n : NT) → List Tok → n.Val → Prop
  | .expr, us, v => Der marco .expr us v
  | .simple, us, v => Der marco .simple us v
  | .logical, us, v => Der marco .logical us v
  | .orTail, us, v => (us = [] ∧ v = []) ∨ ∃ us', us = .kOr :: us' ∧ Der marco .ors us' v
  | .lterm, us, v => Der marco .lterm us v
  | .andTail, us, v => (us = [] ∧ v = []) ∨ ∃ us', us = .kAnd :: us' ∧ Der marco .ands us' v
  | .lfactor, us, v => Der marco .lfactor us v
  | .relation, us, v => Der marco .relation us v
  | .arith, us, v => Der marco .arith us v
  | .addTail a, us, v => ∀ p, Der marco .arith p a → Der marco .arith (p ++ us) v
  | .term, us, v => Der marco .term us v
  | .mulTail a, us, v => ∀ p, Der marco .term p a → Der marco .term (p ++ us) v
  | .factor, us, v => Der marco .factor us v
  | .powTail a, us, v => ∀ p, Der marco .factor p a → Der marco .factor (p ++ us) v
  | .primary, us, v => Der marco .primary us v
  | .postfix a, us, v => (us = [] ∧ v = a) ∨
      ∃ ss, Der marco .subscripts us ss ∧ v = .op .subscription (a :: ss)
  | .outputs, us, v => Der marco .outputs us v
  | .exprs, us, v => Der marco .exprs us v
  | .cref, us, v => ∃ g ws es, us = (if g then [.dot] else []) ++ ws ∧ Der marco .path ws es ∧
      v = .ref g es
  | .crefTail, us, v => (us = [] ∧ v = []) ∨ ∃ us', us = .dot :: us' ∧ Der marco .path us' v
  | .entry, us, v => Der marco .entry us v
  | .subscripts, us, v => Der marco .subscripts us v
  | .subs, us, v => Der marco .subs us v
  | .sub, us, v => Der marco .sub us v
  | .callArgs, us, v => Der marco .callArgs us v
  | .args, us, v => Der marco .args us v
  | .nonFirst, us, v => Der marco .nonFirst us v
  | .named, us, v => Der marco .named us v
  | .namedArg, us, v => Der marco .namedArg us v
  | .forIndices, us, v => Der marco .forIndices us v
  | .forIndex, us, v => Der marco .forIndex us v

/-- What `self` accepts derives from the grammar. -/
def SoundFor (self : (n : NT) → P n.Val) : Prop :=
  ∀ n ts v r, self n ts = .ok v r → ∃ us, ts = us ++ r ∧ Reads n us v

section
variable {self : (n : NT) → P n.Val} (hs : SoundFor self)
include hs

theorem sound_expr : ∀ ts v r, pExpr self ts = .ok v r →
    ∃ us, ts = us ++ r ∧ Reads .expr us v := by
  intro ts v r h
  unfold pExpr at h
  simp only [bind_ok, accept_ok] at h
  obtain ⟨b, r1, ⟨rfl, rfl⟩ | ⟨rfl, rfl, -⟩, h⟩ := h
  · simp only [if_true, bind_ok, expect_ok, pure_ok] at h
    obtain ⟨c, r2, h1, _, r3, rfl, t, r4, h2, _, r5, rfl, e, r6, h3, rfl, rfl⟩ := h
    obtain ⟨u1, rfl, d1⟩ := hs _ _ _ _ h1
    obtain ⟨u2, rfl, d2⟩ := hs _ _ _ _ h2
    obtain ⟨u3, rfl, d3⟩ := hs _ _ _ _ h3
    exact ⟨.kIf :: (u1 ++ .kThen :: (u2 ++ .kElse :: u3)), by simp, .ifElse d1 d2 (.else d3)⟩
  · simp only [Bool.false_eq_true, if_false] at h
    obtain ⟨u, rfl, d⟩ := hs _ _ _ _ h
    exact ⟨u, rfl, .expr d⟩

theorem sound_simple : ∀ ts v r, pSimple self ts = .ok v r →
    ∃ us, ts = us ++ r ∧ Reads .simple us v := by
  intro ts v r h
  unfold pSimple at h
  simp only [bind_ok, accept_ok] at h
  obtain ⟨a, r1, h1, b, r2, ⟨rfl, rfl⟩ | ⟨rfl, rfl, -⟩, h⟩ := h
  · simp only [if_true, bind_ok, accept_ok] at h
    obtain ⟨c, r3, h2, b, r4, ⟨rfl, rfl⟩ | ⟨rfl, rfl, -⟩, h⟩ := h
    · simp only [if_true, bind_ok, pure_ok] at h
      obtain ⟨e, r5, h3, rfl, rfl⟩ := h
      obtain ⟨u1, rfl, d1⟩ := hs _ _ _ _ h1
      obtain ⟨u2, rfl, d2⟩ := hs _ _ _ _ h2
      obtain ⟨u3, rfl, d3⟩ := hs _ _ _ _ h3
      exact ⟨u1 ++ .colon :: (u2 ++ .colon :: u3), by simp, .rangeStep d1 d2 d3⟩
    · simp only [Bool.false_eq_true, if_false, pure_ok] at h
      obtain ⟨rfl, rfl⟩ := h
      obtain ⟨u1, rfl, d1⟩ := hs _ _ _ _ h1
      obtain ⟨u2, rfl, d2⟩ := hs _ _ _ _ h2
      exact ⟨u1 ++ .colon :: u2, by simp, .range d1 d2⟩
  · simp only [Bool.false_eq_true, if_false, pure_ok] at h
    obtain ⟨rfl, rfl⟩ := h
    obtain ⟨u1, rfl, d1⟩ := hs _ _ _ _ h1
    exact ⟨u1, rfl, .simple d1⟩

theorem sound_logical : ∀ ts v r, pLogical self ts = .ok v r →
    ∃ us, ts = us ++ r ∧ Reads .logical us v := by
  intro ts v r h
  unfold pLogical at h
  simp only [bind_ok] at h
  obtain ⟨a, r1, h1, es, r2, h2, h⟩ := h
  obtain ⟨u1, rfl, d1⟩ := hs _ _ _ _ h1
  obtain ⟨u2, rfl, d2⟩ := hs _ _ _ _ h2
  rcases d2 with ⟨rfl, rfl⟩ | ⟨u3, rfl, d2⟩
  · simp only [pure_ok] at h
    obtain ⟨rfl, rfl⟩ := h
    exact ⟨u1, rfl, .logical d1⟩
  · have hne : es ≠ [] := by rintro rfl; cases d2
    obtain ⟨b, bs, rfl⟩ := List.exists_cons_of_ne_nil hne
    simp only [pure_ok] at h
    obtain ⟨rfl, rfl⟩ := h
    exact ⟨u1 ++ .kOr :: u3, by simp, .or (.orsCons d1 d2) (by simp)⟩

theorem sound_orTail : ∀ ts v r, pOrTail self ts = .ok v r →
    ∃ us, ts = us ++ r ∧ Reads .orTail us v := by
  intro ts v r h
  unfold pOrTail at h
  simp only [bind_ok, accept_ok] at h
  obtain ⟨b, r2, ⟨rfl, rfl⟩ | ⟨rfl, rfl, -⟩, h⟩ := h
  · simp only [if_true, bind_ok, pure_ok] at h
    obtain ⟨a, r3, h1, es, r4, h2, rfl, rfl⟩ := h
    obtain ⟨u1, rfl, d1⟩ := hs _ _ _ _ h1
    obtain ⟨u2, rfl, d2⟩ := hs _ _ _ _ h2
    rcases d2 with ⟨rfl, rfl⟩ | ⟨u3, rfl, d2⟩
    · exact ⟨.kOr :: u1, by simp, .inr ⟨_, rfl, .orsOne d1⟩⟩
    · exact ⟨.kOr :: (u1 ++ .kOr :: u3), by simp, .inr ⟨_, rfl, .orsCons d1 d2⟩⟩
  · simp only [Bool.false_eq_true, if_false, pure_ok] at h
    obtain ⟨rfl, rfl⟩ := h
    exact ⟨[], rfl, .inl ⟨rfl, rfl⟩⟩

theorem sound_lterm : ∀ ts v r, pLterm self ts = .ok v r →
    ∃ us, ts = us ++ r ∧ Reads .lterm us v := by
  intro ts v r h
  unfold pLterm at h
  simp only [bind_ok] at h
  obtain ⟨a, r1, h1, es, r2, h2, h⟩ := h
  obtain ⟨u1, rfl, d1⟩ := hs _ _ _ _ h1
  obtain ⟨u2, rfl, d2⟩ := hs _ _ _ _ h2
  rcases d2 with ⟨rfl, rfl⟩ | ⟨u3, rfl, d2⟩
  · simp only [pure_ok] at h
    obtain ⟨rfl, rfl⟩ := h
    exact ⟨u1, rfl, .lterm d1⟩
  · have hne : es ≠ [] := by rintro rfl; cases d2
    obtain ⟨b, bs, rfl⟩ := List.exists_cons_of_ne_nil hne
    simp only [pure_ok] at h
    obtain ⟨rfl, rfl⟩ := h
    exact ⟨u1 ++ .kAnd :: u3, by simp, .and (.andsCons d1 d2) (by simp)⟩

theorem sound_andTail : ∀ ts v r, pAndTail self ts = .ok v r →
    ∃ us, ts = us ++ r ∧ Reads .andTail us v := by
  intro ts v r h
  unfold pAndTail at h
  simp only [bind_ok, accept_ok] at h
  obtain ⟨b, r2, ⟨rfl, rfl⟩ | ⟨rfl, rfl, -⟩, h⟩ := h
  · simp only [if_true, bind_ok, pure_ok] at h
    obtain ⟨a, r3, h1, es, r4, h2, rfl, rfl⟩ := h
    obtain ⟨u1, rfl, d1⟩ := hs _ _ _ _ h1
    obtain ⟨u2, rfl, d2⟩ := hs _ _ _ _ h2
    rcases d2 with ⟨rfl, rfl⟩ | ⟨u3, rfl, d2⟩
    · exact ⟨.kAnd :: u1, by simp, .inr ⟨_, rfl, .andsOne d1⟩⟩
    · exact ⟨.kAnd :: (u1 ++ .kAnd :: u3), by simp, .inr ⟨_, rfl, .andsCons d1 d2⟩⟩
  · simp only [Bool.false_eq_true, if_false, pure_ok] at h
    obtain ⟨rfl, rfl⟩ := h
    exact ⟨[], rfl, .inl ⟨rfl, rfl⟩⟩

theorem sound_lfactor : ∀ ts v r, pLfactor self ts = .ok v r →
    ∃ us, ts = us ++ r ∧ Reads .lfactor us v := by
  intro ts v r h
  unfold pLfactor at h
  simp only [bind_ok, accept_ok] at h
  obtain ⟨b, r2, ⟨rfl, rfl⟩ | ⟨rfl, rfl, -⟩, h⟩ := h
  · simp only [if_true, bind_ok, pure_ok] at h
    obtain ⟨a, r3, h1, rfl, rfl⟩ := h
    obtain ⟨u1, rfl, d1⟩ := hs _ _ _ _ h1
    exact ⟨.kNot :: u1, by simp, .not d1⟩
  · simp only [Bool.false_eq_true, if_false] at h
    obtain ⟨u1, rfl, d1⟩ := hs _ _ _ _ h
    exact ⟨u1, rfl, .lfactor d1⟩

theorem sound_relation : ∀ ts v r, pRelation self ts = .ok v r →
    ∃ us, ts = us ++ r ∧ Reads .relation us v := by
  intro ts v r h
  unfold pRelation at h
  simp only [bind_ok, acceptOp_ok] at h
  obtain ⟨a, r1, h1, o, r2, ⟨t, k, hk, rfl, rfl⟩ | ⟨rfl, rfl, -⟩, h⟩ := h
  · simp only [bind_ok, pure_ok] at h
    obtain ⟨b, r3, h2, rfl, rfl⟩ := h
    obtain ⟨u1, rfl, d1⟩ := hs _ _ _ _ h1
    obtain ⟨u2, rfl, d2⟩ := hs _ _ _ _ h2
    exact ⟨u1 ++ t :: u2, by simp, .rel (relOp_iff.1 hk) d1 d2⟩
  · simp only [pure_ok] at h
    obtain ⟨rfl, rfl⟩ := h
    obtain ⟨u1, rfl, d1⟩ := hs _ _ _ _ h1
    exact ⟨u1, rfl, .relation d1⟩

theorem sound_arith : ∀ ts v r, pArith self ts = .ok v r →
    ∃ us, ts = us ++ r ∧ Reads .arith us v := by
  intro ts v r h
  unfold pArith at h
  simp only [bind_ok, accept_ok] at h
  obtain ⟨b, r2, ⟨rfl, rfl⟩ | ⟨rfl, rfl, -⟩, h⟩ := h
  · simp only [if_true, bind_ok] at h
    obtain ⟨a, r3, h1, h2⟩ := h
    obtain ⟨u1, rfl, d1⟩ := hs _ _ _ _ h1
    obtain ⟨u2, rfl, d2⟩ := hs _ _ _ _ h2
    exact ⟨.minus :: (u1 ++ u2), by simp, d2 (.minus :: u1) (.minus d1)⟩
  · simp only [Bool.false_eq_true, if_false, bind_ok, accept_ok] at h
    obtain ⟨b, r3, ⟨rfl, rfl⟩ | ⟨rfl, rfl, -⟩, a, r4, h1, h2⟩ := h
    · obtain ⟨u1, rfl, d1⟩ := hs _ _ _ _ h1
      obtain ⟨u2, rfl, d2⟩ := hs _ _ _ _ h2
      exact ⟨.plus :: (u1 ++ u2), by simp, d2 (.plus :: u1) (.plus d1)⟩
    · obtain ⟨u1, rfl, d1⟩ := hs _ _ _ _ h1
      obtain ⟨u2, rfl, d2⟩ := hs _ _ _ _ h2
      exact ⟨u1 ++ u2, by simp, d2 u1 (.arith d1)⟩

theorem sound_addTail (a : Ast) : ∀ ts v r, pAddTail self a ts = .ok v r →
    ∃ us, ts = us ++ r ∧ Reads (.addTail a) us v := by
  intro ts v r h
  unfold pAddTail at h
  simp only [bind_ok, acceptOp_ok] at h
  obtain ⟨o, r2, ⟨t, k, hk, rfl, rfl⟩ | ⟨rfl, rfl, -⟩, h⟩ := h
  · simp only [bind_ok] at h
    obtain ⟨b, r3, h1, h2⟩ := h
    obtain ⟨u1, rfl, d1⟩ := hs _ _ _ _ h1
    obtain ⟨u2, rfl, d2⟩ := hs _ _ _ _ h2
    refine ⟨t :: (u1 ++ u2), by simp, fun p hp => ?_⟩
    have := d2 _ (.add (addOp_iff.1 hk) hp d1)
    simpa using this
  · simp only [pure_ok] at h
    obtain ⟨rfl, rfl⟩ := h
    exact ⟨[], rfl, fun p hp => by simpa using hp⟩

theorem sound_term : ∀ ts v r, pTerm self ts = .ok v r →
    ∃ us, ts = us ++ r ∧ Reads .term us v := by
  intro ts v r h
  unfold pTerm at h
  simp only [bind_ok] at h
  obtain ⟨a, r3, h1, h2⟩ := h
  obtain ⟨u1, rfl, d1⟩ := hs _ _ _ _ h1
  obtain ⟨u2, rfl, d2⟩ := hs _ _ _ _ h2
  exact ⟨u1 ++ u2, by simp, d2 u1 (.term d1)⟩

theorem sound_mulTail (a : Ast) : ∀ ts v r, pMulTail self a ts = .ok v r →
    ∃ us, ts = us ++ r ∧ Reads (.mulTail a) us v := by
  intro ts v r h
  unfold pMulTail at h
  simp only [bind_ok, acceptOp_ok] at h
  obtain ⟨o, r2, ⟨t, k, hk, rfl, rfl⟩ | ⟨rfl, rfl, -⟩, h⟩ := h
  · simp only [bind_ok] at h
    obtain ⟨b, r3, h1, h2⟩ := h
    obtain ⟨u1, rfl, d1⟩ := hs _ _ _ _ h1
    obtain ⟨u2, rfl, d2⟩ := hs _ _ _ _ h2
    refine ⟨t :: (u1 ++ u2), by simp, fun p hp => ?_⟩
    have := d2 _ (.mul (mulOp_iff.1 hk) hp d1)
    simpa using this
  · simp only [pure_ok] at h
    obtain ⟨rfl, rfl⟩ := h
    exact ⟨[], rfl, fun p hp => by simpa using hp⟩

theorem sound_factor : ∀ ts v r, pFactor self ts = .ok v r →
    ∃ us, ts = us ++ r ∧ Reads .factor us v := by
  intro ts v r h
  unfold pFactor at h
  simp only [bind_ok] at h
  obtain ⟨a, r3, h1, h2⟩ := h
  obtain ⟨u1, rfl, d1⟩ := hs _ _ _ _ h1
  obtain ⟨u2, rfl, d2⟩ := hs _ _ _ _ h2
  exact ⟨u1 ++ u2, by simp, d2 u1 (.factor d1)⟩

theorem sound_powTail (a : Ast) : ∀ ts v r, pPowTail self a ts = .ok v r →
    ∃ us, ts = us ++ r ∧ Reads (.powTail a) us v := by
  intro ts v r h
  unfold pPowTail at h
  simp only [bind_ok, acceptOp_ok] at h
  obtain ⟨o, r2, ⟨t, k, hk, rfl, rfl⟩ | ⟨rfl, rfl, -⟩, h⟩ := h
  · simp only [bind_ok] at h
    obtain ⟨b, r3, h1, h2⟩ := h
    obtain ⟨u1, rfl, d1⟩ := hs _ _ _ _ h1
    obtain ⟨u2, rfl, d2⟩ := hs _ _ _ _ h2
    refine ⟨t :: (u1 ++ u2), by simp, fun p hp => ?_⟩
    have := d2 _ (.powChain trivial (powOp_iff.1 hk) hp d1)
    simpa using this
  · simp only [pure_ok] at h
    obtain ⟨rfl, rfl⟩ := h
    exact ⟨[], rfl, fun p hp => by simpa using hp⟩

omit hs in
theorem reads_group {us ws : List Tok} {a v : Ast} (d : Der marco .group us a)
    (h : Reads (.postfix a) ws v) : Der marco .primary (us ++ ws) v := by
  rcases h with ⟨rfl, rfl⟩ | ⟨ss, h, rfl⟩
  · rw [List.append_nil]; exact .group d
  · exact .groupSub d h

omit hs in
theorem reads_closed {us ws : List Tok} {a v : Ast} (d : Der marco .closed us a)
    (h : Reads (.postfix a) ws v) : Der marco .primary (us ++ ws) v := by
  rcases h with ⟨rfl, rfl⟩ | ⟨ss, h, rfl⟩
  · rw [List.append_nil]; exact .closed d
  · exact .closedSub trivial d h

theorem sound_primary : ∀ ts v r, pPrimary self ts = .ok v r →
    ∃ us, ts = us ++ r ∧ Reads .primary us v := by
  intro ts v r h
  unfold pPrimary at h
  split at h
  · cases h; exact ⟨[_], rfl, .int⟩
  · cases h; exact ⟨[_], rfl, .real⟩
  · cases h; exact ⟨[_], rfl, .str⟩
  · cases h; exact ⟨[_], rfl, .true⟩
  · cases h; exact ⟨[_], rfl, .false⟩
  · simp only [bind_ok, expect_ok] at h
    obtain ⟨es, r1, h1, _, r2, rfl, h⟩ := h
    obtain ⟨u1, rfl, d1⟩ := hs _ _ _ _ h1
    split at h
    · obtain ⟨u2, rfl, d2⟩ := hs _ _ _ _ h
      exact ⟨.lpar :: (u1 ++ [.rpar]) ++ u2, by simp, reads_group (.paren d1) d2⟩
    · rename_i hne
      obtain ⟨u2, rfl, d2⟩ := hs _ _ _ _ h
      refine ⟨.lpar :: (u1 ++ [.rpar]) ++ u2, by simp, reads_group (.tuple d1 ?_) d2⟩
      intro h
      obtain ⟨e, rfl⟩ := List.length_eq_one_iff.1 h
      exact hne e rfl
  · simp only [bind_ok, accept_ok] at h
    obtain ⟨e, r1, h1, b, r2, ⟨rfl, rfl⟩ | ⟨rfl, rfl, -⟩, h⟩ := h
    · simp only [if_true, bind_ok, expect_ok] at h
      obtain ⟨es, r3, h2, _, r4, rfl, h⟩ := h
      obtain ⟨u1, rfl, d1⟩ := hs _ _ _ _ h1
      obtain ⟨u2, rfl, d2⟩ := hs _ _ _ _ h2
      obtain ⟨u3, rfl, d3⟩ := hs _ _ _ _ h
      exact ⟨.lcurly :: (u1 ++ .comma :: u2 ++ [.rcurly]) ++ u3, by simp,
        reads_closed (.array (.exprsCons d1 d2)) d3⟩
    · simp only [Bool.false_eq_true, if_false, bind_ok, accept_ok] at h
      obtain ⟨b, r2, ⟨rfl, rfl⟩ | ⟨rfl, rfl, -⟩, h⟩ := h
      · simp only [if_true, bind_ok, expect_ok] at h
        obtain ⟨es, r3, h2, _, r4, rfl, h⟩ := h
        obtain ⟨u1, rfl, d1⟩ := hs _ _ _ _ h1
        obtain ⟨u2, rfl, d2⟩ := hs _ _ _ _ h2
        obtain ⟨u3, rfl, d3⟩ := hs _ _ _ _ h
        exact ⟨.lcurly :: (u1 ++ .kFor :: (u2 ++ [.rcurly])) ++ u3, by simp,
          reads_closed (.generator d1 d2) d3⟩
      · simp only [Bool.false_eq_true, if_false, bind_ok, expect_ok] at h
        obtain ⟨_, r4, rfl, h⟩ := h
        obtain ⟨u1, rfl, d1⟩ := hs _ _ _ _ h1
        obtain ⟨u3, rfl, d3⟩ := hs _ _ _ _ h
        exact ⟨.lcurly :: (u1 ++ [.rcurly]) ++ u3, by simp,
          reads_closed (.array (.exprsOne d1)) d3⟩
  · simp only [bind_ok] at h
    obtain ⟨es, r3, h2, h⟩ := h
    obtain ⟨u2, rfl, d2⟩ := hs _ _ _ _ h2
    obtain ⟨u3, rfl, d3⟩ := hs _ _ _ _ h
    exact ⟨.kDer :: u2 ++ u3, by simp, reads_closed (.der d2) d3⟩
  · rename_i s r0
    simp only [bind_ok, isTok_ok] at h
    obtain ⟨c, r3, h1, b, r4, ⟨rfl, hb⟩, h⟩ := h
    obtain ⟨u1, hu1, g, ws, es, rfl, d1, rfl⟩ := hs _ _ _ _ h1
    cases g with
    | true => simp at hu1
    | false =>
      simp only [Bool.false_eq_true, if_false, List.nil_append] at hu1
      cases b with
      | true =>
        simp only [if_true, bind_ok] at h
        obtain ⟨as, r5, h2, h⟩ := h
        obtain ⟨u2, rfl, d2⟩ := hs _ _ _ _ h2
        obtain ⟨u3, rfl, d3⟩ := hs _ _ _ _ h
        exact ⟨ws ++ u2 ++ u3, by simp [hu1], reads_closed (.call (.cref d1) d2) d3⟩
      | false =>
        simp only [Bool.false_eq_true, if_false, pure_ok] at h
        obtain ⟨rfl, rfl⟩ := h
        exact ⟨ws, hu1, .ref (.cref d1)⟩
  · rw [bind_ok] at h
    obtain ⟨_, _, -, h⟩ := h
    cases h
  · cases h

theorem sound_postfix (a : Ast) : ∀ ts v r, pPostfix self a ts = .ok v r →
    ∃ us, ts = us ++ r ∧ Reads (.postfix a) us v := by
  intro ts v r h
  unfold pPostfix at h
  simp only [bind_ok, isTok_ok] at h
  obtain ⟨b, r2, ⟨rfl, -⟩, h⟩ := h
  cases b with
  | true =>
    simp only [if_true, bind_ok, pure_ok] at h
    obtain ⟨ss, r3, h1, rfl, rfl⟩ := h
    obtain ⟨u1, rfl, d1⟩ := hs _ _ _ _ h1
    exact ⟨u1, rfl, .inr ⟨ss, d1, rfl⟩⟩
  | false =>
    simp only [Bool.false_eq_true, if_false, pure_ok] at h
    obtain ⟨rfl, rfl⟩ := h
    exact ⟨[], rfl, .inl ⟨rfl, rfl⟩⟩

omit hs in
theorem outputs_cases {us : List Tok} {es : List Ast} (h : Der marco .outputs us es) :
    (us = [] ∧ es = []) ∨ Der marco .outs us es := by
  cases h with
  | outputsNone => exact .inl ⟨rfl, rfl⟩
  | outputs h => exact .inr h

theorem sound_outputs : ∀ ts v r, pOutputs self ts = .ok v r →
    ∃ us, ts = us ++ r ∧ Reads .outputs us v := by
  intro ts v r h
  unfold pOutputs at h
  simp only [bind_ok, isTok_ok] at h
  obtain ⟨b, r2, ⟨rfl, -⟩, h⟩ := h
  cases b with
  | true =>
    simp only [if_true, pure_ok] at h
    obtain ⟨rfl, rfl⟩ := h
    exact ⟨[], rfl, .outputsNone⟩
  | false =>
    simp only [Bool.false_eq_true, if_false, bind_ok, accept_ok] at h
    obtain ⟨b, r2, ⟨rfl, rfl⟩ | ⟨rfl, rfl, -⟩, h⟩ := h
    · simp only [if_true, bind_ok, pure_ok] at h
      obtain ⟨es, r3, h1, rfl, rfl⟩ := h
      obtain ⟨u1, rfl, d1⟩ := hs _ _ _ _ h1
      refine ⟨.comma :: u1, rfl, .outputs ?_⟩
      rcases outputs_cases d1 with ⟨rfl, rfl⟩ | d1
      · exact .outsComma trivial
      · exact .outsSkip d1
    · simp only [Bool.false_eq_true, if_false, bind_ok, accept_ok, pure_ok] at h
      obtain ⟨e, r3, h1, b, r4, hb, es, r5, h2, rfl, rfl⟩ := h
      obtain ⟨u1, rfl, d1⟩ := hs _ _ _ _ h1
      obtain ⟨u2, rfl, d2⟩ := hs _ _ _ _ h2
      rcases hb with ⟨-, rfl⟩ | ⟨-, rfl, -⟩ <;> rcases outputs_cases d2 with ⟨rfl, rfl⟩ | d2
      · exact ⟨u1 ++ [.comma], by simp, .outputs (.outsTrailing trivial d1)⟩
      · exact ⟨u1 ++ .comma :: u2, by simp, .outputs (.outsCons d1 d2)⟩
      · exact ⟨u1, by simp, .outputs (.outsOne d1)⟩
      · exact ⟨u1 ++ u2, by simp, .outputs (.outsLoose trivial d1 d2)⟩

theorem sound_exprs : ∀ ts v r, pExprs self ts = .ok v r →
    ∃ us, ts = us ++ r ∧ Reads .exprs us v := by
  intro ts v r h
  unfold pExprs at h
  simp only [bind_ok, accept_ok] at h
  obtain ⟨e, r1, h1, b, r2, ⟨rfl, rfl⟩ | ⟨rfl, rfl, -⟩, h⟩ := h
  · simp only [if_true, bind_ok, pure_ok] at h
    obtain ⟨es, r3, h2, rfl, rfl⟩ := h
    obtain ⟨u1, rfl, d1⟩ := hs _ _ _ _ h1
    obtain ⟨u2, rfl, d2⟩ := hs _ _ _ _ h2
    exact ⟨u1 ++ .comma :: u2, by simp, .exprsCons d1 d2⟩
  · simp only [Bool.false_eq_true, if_false, pure_ok] at h
    obtain ⟨rfl, rfl⟩ := h
    obtain ⟨u1, rfl, d1⟩ := hs _ _ _ _ h1
    exact ⟨u1, rfl, .exprsOne d1⟩

theorem sound_cref : ∀ ts v r, pCref self ts = .ok v r →
    ∃ us, ts = us ++ r ∧ Reads .cref us v := by
  intro ts v r h
  unfold pCref at h
  simp only [bind_ok, accept_ok, pure_ok] at h
  obtain ⟨b, r1, hb, e, r2, h1, es, r3, h2, rfl, rfl⟩ := h
  obtain ⟨u1, rfl, d1⟩ := hs _ _ _ _ h1
  obtain ⟨u2, rfl, d2⟩ := hs _ _ _ _ h2
  have key : ∃ ws, u1 ++ (u2 ++ r3) = ws ++ r3 ∧ Der marco .path ws (e :: es) := by
    rcases d2 with ⟨rfl, rfl⟩ | ⟨u3, rfl, d2⟩
    · exact ⟨u1, by simp, .pathOne d1⟩
    · exact ⟨u1 ++ .dot :: u3, by simp, .pathCons d1 d2⟩
  obtain ⟨ws, hws, d⟩ := key
  rcases hb with ⟨rfl, rfl⟩ | ⟨rfl, rfl, -⟩
  · exact ⟨.dot :: ws, by simp [hws], true, ws, _, by simp, d, rfl⟩
  · exact ⟨ws, hws, false, ws, _, by simp, d, rfl⟩

theorem sound_crefTail : ∀ ts v r, pCrefTail self ts = .ok v r →
    ∃ us, ts = us ++ r ∧ Reads .crefTail us v := by
  intro ts v r h
  unfold pCrefTail at h
  simp only [bind_ok, accept_ok] at h
  obtain ⟨b, r2, ⟨rfl, rfl⟩ | ⟨rfl, rfl, -⟩, h⟩ := h
  · simp only [if_true, bind_ok, pure_ok] at h
    obtain ⟨a, r3, h1, es, r4, h2, rfl, rfl⟩ := h
    obtain ⟨u1, rfl, d1⟩ := hs _ _ _ _ h1
    obtain ⟨u2, rfl, d2⟩ := hs _ _ _ _ h2
    rcases d2 with ⟨rfl, rfl⟩ | ⟨u3, rfl, d2⟩
    · exact ⟨.dot :: u1, by simp, .inr ⟨_, rfl, .pathOne d1⟩⟩
    · exact ⟨.dot :: (u1 ++ .dot :: u3), by simp, .inr ⟨_, rfl, .pathCons d1 d2⟩⟩
  · simp only [Bool.false_eq_true, if_false, pure_ok] at h
    obtain ⟨rfl, rfl⟩ := h
    exact ⟨[], rfl, .inl ⟨rfl, rfl⟩⟩

theorem sound_entry : ∀ ts v r, pEntry self ts = .ok v r →
    ∃ us, ts = us ++ r ∧ Reads .entry us v := by
  intro ts v r h
  unfold pEntry at h
  simp only [bind_ok, ident_ok, isTok_ok] at h
  obtain ⟨s, r1, rfl, b, r2, ⟨rfl, -⟩, h⟩ := h
  cases b with
  | true =>
    simp only [if_true, bind_ok, pure_ok] at h
    obtain ⟨ss, r3, h1, rfl, rfl⟩ := h
    obtain ⟨u1, rfl, d1⟩ := hs _ _ _ _ h1
    exact ⟨.ident s :: u1, rfl, .entrySub d1⟩
  | false =>
    simp only [Bool.false_eq_true, if_false, pure_ok] at h
    obtain ⟨rfl, rfl⟩ := h
    exact ⟨[.ident s], rfl, .entry⟩

theorem sound_subscripts : ∀ ts v r, pSubscripts self ts = .ok v r →
    ∃ us, ts = us ++ r ∧ Reads .subscripts us v := by
  intro ts v r h
  unfold pSubscripts at h
  simp only [bind_ok, expect_ok, pure_ok] at h
  obtain ⟨_, r1, rfl, ss, r2, h1, _, r3, rfl, rfl, rfl⟩ := h
  obtain ⟨u1, rfl, d1⟩ := hs _ _ _ _ h1
  exact ⟨Tok.lsquare :: (u1 ++ [Tok.rsquare]), by simp, .subscripts d1⟩

theorem sound_subs : ∀ ts v r, pSubs self ts = .ok v r →
    ∃ us, ts = us ++ r ∧ Reads .subs us v := by
  intro ts v r h
  unfold pSubs at h
  simp only [bind_ok, accept_ok] at h
  obtain ⟨e, r1, h1, b, r2, ⟨rfl, rfl⟩ | ⟨rfl, rfl, -⟩, h⟩ := h
  · simp only [if_true, bind_ok, pure_ok] at h
    obtain ⟨es, r3, h2, rfl, rfl⟩ := h
    obtain ⟨u1, rfl, d1⟩ := hs _ _ _ _ h1
    obtain ⟨u2, rfl, d2⟩ := hs _ _ _ _ h2
    exact ⟨u1 ++ .comma :: u2, by simp, .subsCons d1 d2⟩
  · simp only [Bool.false_eq_true, if_false, pure_ok] at h
    obtain ⟨rfl, rfl⟩ := h
    obtain ⟨u1, rfl, d1⟩ := hs _ _ _ _ h1
    exact ⟨u1, rfl, .subsOne d1⟩

theorem sound_sub : ∀ ts v r, pSub self ts = .ok v r →
    ∃ us, ts = us ++ r ∧ Reads .sub us v := by
  intro ts v r h
  unfold pSub at h
  simp only [bind_ok, accept_ok] at h
  obtain ⟨b, r2, ⟨rfl, rfl⟩ | ⟨rfl, rfl, -⟩, h⟩ := h
  · simp only [if_true, pure_ok] at h
    obtain ⟨rfl, rfl⟩ := h
    exact ⟨[.colon], rfl, .subAll⟩
  · simp only [Bool.false_eq_true, if_false, bind_ok, pure_ok] at h
    obtain ⟨e, r1, h1, rfl, rfl⟩ := h
    obtain ⟨u1, rfl, d1⟩ := hs _ _ _ _ h1
    exact ⟨u1, rfl, .sub d1⟩

theorem sound_callArgs : ∀ ts v r, pCallArgs self ts = .ok v r →
    ∃ us, ts = us ++ r ∧ Reads .callArgs us v := by
  intro ts v r h
  unfold pCallArgs at h
  simp only [bind_ok, expect_ok, isTok_ok] at h
  obtain ⟨_, r1, rfl, b, r2, ⟨rfl, -⟩, h⟩ := h
  cases b with
  | true =>
    simp only [if_true, bind_ok, expect_ok, pure_ok] at h
    obtain ⟨_, r3, rfl, rfl, rfl⟩ := h
    exact ⟨[.lpar, .rpar], rfl, .callNone⟩
  | false =>
    simp only [Bool.false_eq_true, if_false, bind_ok, expect_ok, pure_ok] at h
    obtain ⟨as, r3, h1, _, r4, rfl, rfl, rfl⟩ := h
    obtain ⟨u1, rfl, d1⟩ := hs _ _ _ _ h1
    exact ⟨Tok.lpar :: (u1 ++ [Tok.rpar]), by simp, .callArgs d1⟩

theorem sound_args : ∀ ts v r, pArgs self ts = .ok v r →
    ∃ us, ts = us ++ r ∧ Reads .args us v := by
  intro ts v r h
  unfold pArgs at h
  rw [bind_ok] at h
  obtain ⟨b, r0, h0, h⟩ := h
  obtain rfl := atNamed_ok h0
  cases b with
  | true =>
    simp only [if_true] at h
    obtain ⟨u1, rfl, d1⟩ := hs _ _ _ _ h
    exact ⟨u1, rfl, .argsNamed d1⟩
  | false =>
    simp only [Bool.false_eq_true, if_false, bind_ok, accept_ok] at h
    obtain ⟨e, r1, h1, b, r2, ⟨rfl, rfl⟩ | ⟨rfl, rfl, -⟩, h⟩ := h
    · simp only [if_true, bind_ok, pure_ok] at h
      obtain ⟨is, r3, h2, rfl, rfl⟩ := h
      obtain ⟨u1, rfl, d1⟩ := hs _ _ _ _ h1
      obtain ⟨u2, rfl, d2⟩ := hs _ _ _ _ h2
      exact ⟨u1 ++ .kFor :: u2, by simp, .argsFor d1 d2⟩
    · simp only [Bool.false_eq_true, if_false, bind_ok, accept_ok] at h
      obtain ⟨b, r2, ⟨rfl, rfl⟩ | ⟨rfl, rfl, -⟩, h⟩ := h
      · simp only [if_true, bind_ok, pure_ok] at h
        obtain ⟨is, r3, h2, rfl, rfl⟩ := h
        obtain ⟨u1, rfl, d1⟩ := hs _ _ _ _ h1
        obtain ⟨u2, rfl, d2⟩ := hs _ _ _ _ h2
        exact ⟨u1 ++ .comma :: u2, by simp, .argsCons d1 d2⟩
      · simp only [Bool.false_eq_true, if_false, pure_ok] at h
        obtain ⟨rfl, rfl⟩ := h
        obtain ⟨u1, rfl, d1⟩ := hs _ _ _ _ h1
        exact ⟨u1, rfl, .argsOne d1⟩

theorem sound_nonFirst : ∀ ts v r, pNonFirst self ts = .ok v r →
    ∃ us, ts = us ++ r ∧ Reads .nonFirst us v := by
  intro ts v r h
  unfold pNonFirst at h
  rw [bind_ok] at h
  obtain ⟨b, r0, h0, h⟩ := h
  obtain rfl := atNamed_ok h0
  cases b with
  | true =>
    simp only [if_true] at h
    obtain ⟨u1, rfl, d1⟩ := hs _ _ _ _ h
    exact ⟨u1, rfl, .nonFirstNamed d1⟩
  | false =>
    simp only [Bool.false_eq_true, if_false, bind_ok, accept_ok] at h
    obtain ⟨e, r1, h1, b, r2, ⟨rfl, rfl⟩ | ⟨rfl, rfl, -⟩, h⟩ := h
    · simp only [if_true, bind_ok, pure_ok] at h
      obtain ⟨is, r3, h2, rfl, rfl⟩ := h
      obtain ⟨u1, rfl, d1⟩ := hs _ _ _ _ h1
      obtain ⟨u2, rfl, d2⟩ := hs _ _ _ _ h2
      exact ⟨u1 ++ .comma :: u2, by simp, .nonFirstCons d1 d2⟩
    · simp only [Bool.false_eq_true, if_false, pure_ok] at h
      obtain ⟨rfl, rfl⟩ := h
      obtain ⟨u1, rfl, d1⟩ := hs _ _ _ _ h1
      exact ⟨u1, rfl, .nonFirstOne d1⟩

theorem sound_named : ∀ ts v r, pNamed self ts = .ok v r →
    ∃ us, ts = us ++ r ∧ Reads .named us v := by
  intro ts v r h
  unfold pNamed at h
  simp only [bind_ok, accept_ok] at h
  obtain ⟨e, r1, h1, b, r2, ⟨rfl, rfl⟩ | ⟨rfl, rfl, -⟩, h⟩ := h
  · simp only [if_true, bind_ok, pure_ok] at h
    obtain ⟨es, r3, h2, rfl, rfl⟩ := h
    obtain ⟨u1, rfl, d1⟩ := hs _ _ _ _ h1
    obtain ⟨u2, rfl, d2⟩ := hs _ _ _ _ h2
    exact ⟨u1 ++ .comma :: u2, by simp, .namedCons d1 d2⟩
  · simp only [Bool.false_eq_true, if_false, pure_ok] at h
    obtain ⟨rfl, rfl⟩ := h
    obtain ⟨u1, rfl, d1⟩ := hs _ _ _ _ h1
    exact ⟨u1, rfl, .namedOne d1⟩

theorem sound_namedArg : ∀ ts v r, pNamedArg self ts = .ok v r →
    ∃ us, ts = us ++ r ∧ Reads .namedArg us v := by
  intro ts v r h
  unfold pNamedArg at h
  simp only [bind_ok, ident_ok, expect_ok, pure_ok] at h
  obtain ⟨s, r1, rfl, _, r2, rfl, e, r3, h1, rfl, rfl⟩ := h
  obtain ⟨u1, rfl, d1⟩ := hs _ _ _ _ h1
  exact ⟨.ident s :: .assign :: u1, rfl, .namedArg d1⟩

theorem sound_forIndices : ∀ ts v r, pForIndices self ts = .ok v r →
    ∃ us, ts = us ++ r ∧ Reads .forIndices us v := by
  intro ts v r h
  unfold pForIndices at h
  simp only [bind_ok, accept_ok] at h
  obtain ⟨e, r1, h1, b, r2, ⟨rfl, rfl⟩ | ⟨rfl, rfl, -⟩, h⟩ := h
  · simp only [if_true, bind_ok, pure_ok] at h
    obtain ⟨es, r3, h2, rfl, rfl⟩ := h
    obtain ⟨u1, rfl, d1⟩ := hs _ _ _ _ h1
    obtain ⟨u2, rfl, d2⟩ := hs _ _ _ _ h2
    exact ⟨u1 ++ .comma :: u2, by simp, .forCons d1 d2⟩
  · simp only [Bool.false_eq_true, if_false, pure_ok] at h
    obtain ⟨rfl, rfl⟩ := h
    obtain ⟨u1, rfl, d1⟩ := hs _ _ _ _ h1
    exact ⟨u1, rfl, .forOne d1⟩

theorem sound_forIndex : ∀ ts v r, pForIndex self ts = .ok v r →
    ∃ us, ts = us ++ r ∧ Reads .forIndex us v := by
  intro ts v r h
  unfold pForIndex at h
  simp only [bind_ok, ident_ok, accept_ok] at h
  obtain ⟨s, r1, rfl, b, r2, ⟨rfl, rfl⟩ | ⟨rfl, rfl, -⟩, h⟩ := h
  · simp only [if_true, bind_ok, pure_ok] at h
    obtain ⟨e, r3, h1, rfl, rfl⟩ := h
    obtain ⟨u1, rfl, d1⟩ := hs _ _ _ _ h1
    exact ⟨.ident s :: .kIn :: u1, rfl, .forIndexIn d1⟩
  · simp only [Bool.false_eq_true, if_false, pure_ok] at h
    obtain ⟨rfl, rfl⟩ := h
    exact ⟨[.ident s], rfl, .forIndex⟩

theorem sound_step : SoundFor (step self) := by
  intro n
  cases n with
  | expr => exact sound_expr hs
  | simple => exact sound_simple hs
  | logical => exact sound_logical hs
  | orTail => exact sound_orTail hs
  | lterm => exact sound_lterm hs
  | andTail => exact sound_andTail hs
  | lfactor => exact sound_lfactor hs
  | relation => exact sound_relation hs
  | arith => exact sound_arith hs
  | addTail a => exact sound_addTail hs a
  | term => exact sound_term hs
  | mulTail a => exact sound_mulTail hs a
  | factor => exact sound_factor hs
  | powTail a => exact sound_powTail hs a
  | primary => exact sound_primary hs
  | «postfix» a => exact sound_postfix hs a
  | outputs => exact sound_outputs hs
  | exprs => exact sound_exprs hs
  | cref => exact sound_cref hs
  | crefTail => exact sound_crefTail hs
  | entry => exact sound_entry hs
  | subscripts => exact sound_subscripts hs
  | subs => exact sound_subs hs
  | sub => exact sound_sub hs
  | callArgs => exact sound_callArgs hs
  | args => exact sound_args hs
  | nonFirst => exact sound_nonFirst hs
  | named => exact sound_named hs
  | namedArg => exact sound_namedArg hs
  | forIndices => exact sound_forIndices hs
  | forIndex => exact sound_forIndex hs

end

/-- What the functions accept derives from the grammar. -/
theorem parse_sound : ∀ k, SoundFor (parse k)
  | 0 => by intro n ts v r h; cases h
  | k + 1 => sound_step (parse_sound k)

end Marco.Parse
