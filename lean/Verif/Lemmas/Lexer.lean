import Verif.Spec.Lexer
import Mathlib.Tactic.Ring
import Mathlib.Tactic.FieldSimp
import Mathlib.Tactic.Linarith

/-! # The lexer: helper lemmas -/

namespace Marco.Lex
open Spec

/-- The character following a part of the text. -/
def after (n : Char) (b : List Char) : Char := if b.isEmpty then n else peek b

theorem after_nul (b : List Char) : after nul b = peek b := by
  cases b <;> rfl

theorem after_append (n : Char) (b c : List Char) : after n (b ++ c) = after (after n c) b := by
  cases b <;> simp [after, peek]

theorem feed_cons (n : Char) (st : St) (c : Char) (cs : List Char) :
    feed n st (c :: cs) = (step st c (after n cs)).bind fun p =>
      (feed n p.1 cs).map fun q => (q.1, p.2.toList ++ q.2) := by
  simp only [feed, after, Option.bind_eq_bind]
  congr 1
  funext p
  cases feed n p.1 cs <;> rfl

theorem feed_append (n : Char) (st : St) (a b : List Char) :
    feed n st (a ++ b) = (feed (after n b) st a).bind fun p =>
      (feed n p.1 b).map fun q => (q.1, p.2 ++ q.2) := by
  induction a generalizing st with
  | nil => simp [feed]
  | cons c cs ih =>
    rw [List.cons_append, feed_cons, feed_cons, after_append]
    cases step st c (after (after n b) cs) with
    | none => rfl
    | some p =>
      simp only [Option.bind_some, ih]
      cases feed (after n b) p.1 cs with
      | none => rfl
      | some q =>
        simp only [Option.bind_some, Option.map_some]
        cases feed n q.1 b with
        | none => rfl
        | some r => simp

/-- A part of the text that ends between tokens. -/
theorem run_append (st : St) (a b : List Char) (st' : St) (ts : List Tok)
    (h : feed (peek b) st a = some (st', ts)) :
    run st (a ++ b) = (run st' b).map (ts ++ ·) := by
  simp only [run, feed_append, after_nul, h, Option.bind_eq_bind, Option.bind_some]
  cases feed nul st' b with
  | none => rfl
  | some q =>
    simp only [Option.map_some, Option.bind_some]
    cases finish 4 q.1 with
    | none => rfl
    | some r => simp

theorem after_ne_nul {n : Char} {b : List Char} (hn : n ≠ nul) (hb : nul ∉ b) :
    after n b ≠ nul := by
  cases b with
  | nil => exact hn
  | cons c cs => simp only [after, peek]; intro h; exact hb (by simp [← h])

/-- Within a block comment. -/
theorem feed_block (n : Char) (w : List Char) (h : ¬ ['*', '/'] <:+: w) (hn : nul ∉ w) :
    feed n .blockComment (w ++ ['*', '/']) = some (.normal, []) := by
  induction w with
  | nil => simp [feed_cons, step, scanBlockComment, after, peek, feed]
  | cons c cs ih =>
    have h' : ¬ ['*', '/'] <:+: cs := fun hc => h (hc.trans (List.suffix_cons c cs).isInfix)
    have hn' : nul ∉ cs := fun hc => hn (by simp [hc])
    rw [List.cons_append, feed_cons]
    have hne : after n (cs ++ ['*', '/']) ≠ nul := by
      rw [after_append]
      exact after_ne_nul (by simp [after, peek, nul]) hn'
    have hstep : step .blockComment c (after n (cs ++ ['*', '/'])) = some (.blockComment, none) := by
      simp only [step, scanBlockComment]
      rw [if_neg, if_neg]
      · simpa using hne
      · simp only [Bool.and_eq_true, beq_iff_eq, not_and]
        intro hc hs
        cases cs with
        | nil => simp [after, peek] at hs
        | cons d ds =>
          simp only [after, List.cons_append, List.isEmpty_cons, peek, Bool.false_eq_true,
            if_false] at hs
          subst hc hs
          exact h ⟨[], ds, by simp⟩
    rw [hstep]
    simp [ih h' hn']

theorem feed_line (n : Char) (w : List Char) (h : '\n' ∉ w) (hn : nul ∉ w) :
    feed n .lineComment (w ++ ['\n']) = some (.normal, []) := by
  induction w with
  | nil => simp [feed_cons, step, scanLineComment, feed]
  | cons c cs ih =>
    rw [List.cons_append, feed_cons]
    have hne : after n (cs ++ ['\n']) ≠ nul := by
      rw [after_append]
      exact after_ne_nul (by simp [after, peek, nul]) (fun hc => hn (by simp [hc]))
    have hstep : step .lineComment c (after n (cs ++ ['\n'])) = some (.lineComment, none) := by
      simp only [step, scanLineComment]
      rw [if_neg]
      simp only [Bool.or_eq_true, beq_iff_eq, not_or]
      exact ⟨hne, fun hc => h (by simp [hc])⟩
    rw [hstep]
    simp [ih (fun hc => h (by simp [hc])) (fun hc => hn (by simp [hc]))]

/-- An unterminated block comment. -/
theorem feed_unterminated (w : List Char) (h : ¬ ['*', '/'] <:+: w) (hne : w ≠ []) (hn : nul ∉ w) :
    feed nul .blockComment w = some (.normal, []) := by
  induction w with
  | nil => exact absurd rfl hne
  | cons c cs ih =>
    rw [feed_cons]
    cases cs with
    | nil =>
      have : step .blockComment c (after nul []) = some (.normal, none) := by
        simp [step, scanBlockComment, after, nul]
      rw [this]
      simp [feed]
    | cons d ds =>
      have h' : ¬ ['*', '/'] <:+: d :: ds := fun hc => h (hc.trans (List.suffix_cons c _).isInfix)
      have hstep : step .blockComment c (after nul (d :: ds)) = some (.blockComment, none) := by
        simp only [step, scanBlockComment, after, List.isEmpty_cons, Bool.false_eq_true, if_false,
          peek]
        rw [if_neg, if_neg]
        · simp only [beq_iff_eq]
          intro hd
          exact hn (by simp [hd])
        · simp only [Bool.and_eq_true, beq_iff_eq, not_and]
          intro hc hs
          subst hc hs
          exact h ⟨[], ds, by simp⟩
      rw [hstep]
      simp [ih h' (by simp) (fun hc => hn (List.mem_cons_of_mem _ hc))]

theorem start_block (n : Char) (w : List Char) : feed n .normal ('/' :: '*' :: w)
    = feed n .blockComment ('*' :: w) := by
  rw [feed_cons]
  have : step .normal '/' (after n ('*' :: w)) = some (.blockComment, none) := by
    simp only [after, List.isEmpty_cons, Bool.false_eq_true, if_false, peek]
    decide +kernel
  rw [this, Option.bind_some]
  cases h : feed n .blockComment ('*' :: w) <;> simp

theorem start_line (n : Char) (w : List Char) : feed n .normal ('/' :: '/' :: w)
    = feed n .lineComment ('/' :: w) := by
  rw [feed_cons]
  have : step .normal '/' (after n ('/' :: w)) = some (.lineComment, none) := by
    simp only [after, List.isEmpty_cons, Bool.false_eq_true, if_false, peek]
    decide +kernel
  rw [this, Option.bind_some]
  cases h : feed n .lineComment ('/' :: w) <;> simp

/-! ### Numbers -/

theorem digit_range {c : Char} : ('0' ≤ c ∧ c ≤ '9') ↔ isDigit c = true := by
  simp [isDigit, Char.le_def]

theorem digit_toNat {c : Char} (h : isDigit c = true) : 48 ≤ c.toNat ∧ c.toNat ≤ 57 := by
  simp only [isDigit, Bool.and_eq_true, decide_eq_true_eq, UInt32.le_iff_toNat_le] at h
  exact h

theorem digit_ne {c : Char} (h : isDigit c = true) (k : Char) (hk : isDigit k = false) :
    (c == k) = false := by
  rw [beq_eq_false_iff_ne]
  rintro rfl
  rw [h] at hk; cases hk

theorem digit_notSpace {c : Char} (h : isDigit c = true) : isSpace c = false := by
  simp only [isSpace, Bool.or_eq_false_iff]
  refine ⟨⟨⟨⟨⟨?_, ?_⟩, ?_⟩, ?_⟩, ?_⟩, ?_⟩ <;> exact digit_ne h _ (by decide)

theorem digit_notNonDigit {c : Char} (h : isDigit c = true) : isNonDigit c = false := by
  have hr := digit_toNat h
  simp only [isNonDigit, digit_ne h '_' (by decide), Bool.or_false, Bool.or_eq_false_iff,
    Bool.and_eq_false_iff, decide_eq_false_iff_not, UInt32.le_iff_toNat_le, not_le]
  have h1 : c.val.toNat = c.toNat := rfl
  have h2 : 'a'.val.toNat = 97 := rfl
  have h3 : 'A'.val.toNat = 65 := rfl
  omega

theorem digit_lt {c : Char} (h : isDigit c = true) : digit c < 10 := by
  have := digit_toNat h; simp only [digit]; omega

/-- The value after some more digits. -/
def extend (v : Nat) (ds : List Char) : Nat := v * 10 ^ ds.length + numVal ds

theorem extend_cons (v : Nat) (c : Char) (ds : List Char) :
    extend v (c :: ds) = extend (v * 10 + digit c) ds := by
  simp only [extend, numVal, List.length_cons, digit]
  have : '0'.toNat = 48 := rfl
  rw [this]
  ring

theorem le_extend (v : Nat) (ds : List Char) : v ≤ extend v ds := by
  simp only [extend]
  have : 1 ≤ 10 ^ ds.length := Nat.one_le_pow _ _ (by norm_num)
  nlinarith

theorem addDigit_ok {v i m : Nat} (h : v * 10 + i ≤ m) (hm : m < 2 ^ 63) :
    addDigit v i = some (v * 10 + i) := if_pos (by omega)

theorem numVal_lt (ds : List Char) (h : ∀ c ∈ ds, isDigit c = true) :
    numVal ds < 10 ^ ds.length := by
  induction ds with
  | nil => simp [numVal]
  | cons c cs ih =>
    have h1 := ih (fun c hc => h c (by simp [hc]))
    have h2 := digit_lt (h c (by simp))
    simp only [digit] at h2
    have : '0'.toNat = 48 := rfl
    simp only [numVal, List.length_cons, pow_succ, this]
    nlinarith

/-- What follows an integer part. -/
def IntStop (n : Char) : Prop := (isDigit n || n == '.' || n == 'e' || n == 'E') = false

/-- Digits in the state ParsingNumber. -/
theorem feed_number (next : Char) (ds : List Char) (hd : ∀ c ∈ ds, isDigit c = true) (hne : ds ≠ []) :
    ∀ n : Num, extend n.upper ds < 2 ^ 63 →
    feed next (.number n) ds =
      if (isDigit next || next == '.' || next == 'e' || next == 'E') = true then
        some (.number { n with upper := extend n.upper ds }, [])
      else some (.normal, [.integer (extend n.upper ds)]) := by
  induction ds with
  | nil => exact absurd rfl hne
  | cons c cs ih =>
    intro n hfit
    have hc : isDigit c = true := hd c (by simp)
    rw [extend_cons] at hfit ⊢
    have hadd : n.addUpper (digit c) = some { n with upper := n.upper * 10 + digit c } := by
      simp [Num.addUpper, addDigit_ok (le_extend _ cs) hfit]
    have hstep : ∀ x, step (.number n) c x =
        if (isDigit x || x == '.' || x == 'e' || x == 'E') = true then
          some (.number { n with upper := n.upper * 10 + digit c }, none)
        else some (.normal, some (.integer (n.upper * 10 + digit c))) := by
      intro x
      simp only [step, scanNumber, hc, if_true, hadd, digit_ne hc '.' (by decide),
        digit_ne hc 'E' (by decide), digit_ne hc 'e' (by decide), Option.bind_eq_bind,
        Option.bind_some, Bool.or_self, Bool.false_eq_true, if_false]
      cases (isDigit x || x == '.' || x == 'e' || x == 'E') <;> simp
    rw [feed_cons, hstep]
    cases cs with
    | nil =>
      simp only [after, List.isEmpty_nil, if_true]
      have : extend (n.upper * 10 + digit c) [] = n.upper * 10 + digit c := by simp [extend, numVal]
      rw [this]
      cases (isDigit next || next == '.' || next == 'e' || next == 'E') <;> simp [feed]
    | cons d ds' =>
      have hdd : isDigit d = true := hd d (by simp)
      have ih' := ih (fun c hc => hd c (List.mem_cons_of_mem _ hc)) (by simp)
        { n with upper := n.upper * 10 + digit c } hfit
      simp only [after, List.isEmpty_cons, Bool.false_eq_true, if_false, peek, hdd, Bool.true_or,
        if_true, Option.bind_some, ih']
      cases (isDigit next || next == '.' || next == 'e' || next == 'E') <;> simp

/-- A number begins like in the state ParsingNumber. -/
theorem start_number (next : Char) (c : Char) (cs : List Char) (hc : isDigit c = true) :
    feed next .normal (c :: cs) = feed next (.number {}) (c :: cs) := by
  rw [feed_cons, feed_cons]
  congr 1
  simp only [step, scanNormal, digit_notSpace hc, digit_notNonDigit hc,
    digit_ne hc '$' (by decide), digit_ne hc '\'' (by decide), hc, Bool.false_and, Bool.or_self,
    Bool.false_eq_true, if_false, if_true]

/-- The number after one digit of the fraction. -/
def fracStep (n : Num) (c : Char) : Num :=
  { n with
    lower := n.lower * 10 + digit c
    lead := n.lead && digit c == 0
    zeros := if n.lead && digit c == 0 then n.zeros + 1 else n.zeros }

/-- The number after some digits of the fraction. -/
def fracAfter (n : Num) (ds : List Char) : Num := ds.foldl fracStep n

theorem fracAfter_nil (n : Num) : fracAfter n [] = n := rfl

theorem fracAfter_cons (n : Num) (c : Char) (cs : List Char) :
    fracAfter n (c :: cs) = fracAfter (fracStep n c) cs := by
  unfold fracAfter; rw [List.foldl_cons]

theorem fracAfter_lower (n : Num) (ds : List Char) :
    (fracAfter n ds).lower = extend n.lower ds := by
  induction ds generalizing n with
  | nil => simp [fracAfter_nil, extend, numVal]
  | cons c cs ih => rw [fracAfter_cons, ih, extend_cons]; rfl

/-- The parts of the number that the fraction leaves alone. -/
theorem fracAfter_rest (n : Num) (ds : List Char) :
    (fracAfter n ds).upper = n.upper ∧ (fracAfter n ds).hasExp = n.hasExp ∧
    (fracAfter n ds).exp = n.exp ∧ (fracAfter n ds).sign = n.sign := by
  induction ds generalizing n with
  | nil => exact ⟨rfl, rfl, rfl, rfl⟩
  | cons c cs ih => rw [fracAfter_cons]; exact ih _

/-- Digits in the state ParsingFloat. -/
theorem feed_float (next : Char) (ds : List Char) (hd : ∀ c ∈ ds, isDigit c = true) (hne : ds ≠ []) :
    ∀ n : Num, extend n.lower ds < 2 ^ 63 →
    feed next (.float n) ds =
      if (isDigit next || next == 'E' || next == 'e') = true then
        some (.float (fracAfter n ds), [])
      else (fracAfter n ds).get.map fun v => (.normal, [.float v]) := by
  induction ds with
  | nil => exact absurd rfl hne
  | cons c cs ih =>
    intro n hfit
    have hc : isDigit c = true := hd c (by simp)
    rw [extend_cons] at hfit
    rw [fracAfter_cons]
    have hadd : n.addLower (digit c) = some (fracStep n c) := by
      simp only [Num.addLower, addDigit_ok (le_extend _ cs) hfit, Option.bind_eq_bind,
        Option.bind_some, fracStep]
    have hlow : (fracStep n c).lower = n.lower * 10 + digit c := rfl
    rw [← hlow] at hfit
    generalize fracStep n c = n' at hadd hfit hlow ⊢
    have hstep : ∀ x, step (.float n) c x =
        if (isDigit x || x == 'E' || x == 'e') = true then some (.float n', none)
        else n'.get.map fun v => (.normal, some (.float v)) := by
      intro x
      simp only [step, scanFloat, digit_notSpace hc, digit_ne hc nul (by decide), hc, if_true, hadd,
        digit_ne hc 'E' (by decide), digit_ne hc 'e' (by decide), Option.bind_eq_bind,
        Option.bind_some, Bool.or_self, Bool.false_eq_true, if_false, Bool.false_and]
      cases (isDigit x || x == 'E' || x == 'e')
      · cases n'.get <;> simp
      · simp
    rw [feed_cons, hstep]
    cases cs with
    | nil =>
      simp only [after, List.isEmpty_nil, if_true, fracAfter_nil]
      cases (isDigit next || next == 'E' || next == 'e')
      · cases n'.get <;> simp [feed]
      · simp [feed]
    | cons d ds' =>
      have hdd : isDigit d = true := hd d (by simp)
      have ih' := ih (fun c hc => hd c (List.mem_cons_of_mem _ hc)) (by simp) n' hfit
      simp only [after, List.isEmpty_cons, Bool.false_eq_true, if_false, peek, hdd, Bool.true_or,
        if_true, Option.bind_some, ih']
      cases (isDigit next || next == 'E' || next == 'e')
      · cases (fracAfter n' (d :: ds')).get <;> simp
      · simp

/-- Digits in the state ParsingFloatExponent. -/
theorem feed_exp (next : Char) (ds : List Char) (hd : ∀ c ∈ ds, isDigit c = true) (hne : ds ≠ []) :
    ∀ n : Num, extend n.exp ds < 2 ^ 63 → n.hasExp = true →
    feed next (.exp n) ds =
      if isDigit next = true then some (.exp { n with exp := extend n.exp ds }, [])
      else { n with exp := extend n.exp ds }.get.map fun v => (.normal, [.float v]) := by
  induction ds with
  | nil => exact absurd rfl hne
  | cons c cs ih =>
    intro n hfit he
    have hc : isDigit c = true := hd c (by simp)
    rw [extend_cons] at hfit ⊢
    set n' : Num := { n with exp := n.exp * 10 + digit c } with hn'
    have hadd : n.addExp (digit c) = some n' := by
      simp only [Num.addExp, addDigit_ok (le_extend _ cs) hfit, Option.bind_eq_bind,
        Option.bind_some, hn', ← he]
    have hstep : ∀ x, step (.exp n) c x =
        if isDigit x = true then some (.exp n', none)
        else n'.get.map fun v => (.normal, some (.float v)) := by
      intro x
      simp only [step, scanExp, digit_notSpace hc, digit_ne hc nul (by decide), hc, if_true, hadd,
        Option.bind_eq_bind, Option.bind_some, Bool.or_self, Bool.false_eq_true, if_false]
      cases isDigit x
      · cases n'.get <;> simp
      · simp
    rw [feed_cons, hstep]
    cases cs with
    | nil =>
      have : extend (n.exp * 10 + digit c) [] = n.exp * 10 + digit c := by simp [extend, numVal]
      simp only [after, List.isEmpty_nil, if_true, this]
      cases isDigit next
      · cases n'.get <;> simp [feed]
      · simp [feed, hn']
    | cons d ds' =>
      have hdd : isDigit d = true := hd d (by simp)
      have ih' := ih (fun c hc => hd c (List.mem_cons_of_mem _ hc)) (by simp) n' hfit he
      simp only [after, List.isEmpty_cons, Bool.false_eq_true, if_false, peek, hdd,
        if_true, Option.bind_some, ih']
      cases isDigit next
      · simp only [Bool.false_eq_true, if_false, hn']
        generalize Num.get _ = o
        cases o <;> simp
      · simp [hn']

/-! ### The value of the fraction -/

theorem normalizer_spec (lower fuel : Nat) : ∀ k, lower < 10 ^ 18 → k + fuel ≥ 20 → k ≤ 18 →
    (k = 0 ∨ 10 ^ (k - 1) ≤ lower) →
    ∃ j, Num.normalizer lower fuel (10 ^ k) = some (10 ^ j) ∧ lower < 10 ^ j ∧
      (j = 0 ∨ 10 ^ (j - 1) ≤ lower) := by
  induction fuel with
  | zero => intro k _ h1 h2; omega
  | succ fuel ih =>
    intro k hl h1 h2 h3
    simp only [Num.normalizer]
    by_cases h : 10 ^ k ≤ lower
    · have hk : k < 18 := by
        by_contra hc
        have : k = 18 := by omega
        subst this
        omega
      have hfit : 10 ^ k * 10 < 2 ^ 63 := by
        have : 10 ^ k ≤ 10 ^ 17 := Nat.pow_le_pow_right (by norm_num) (by omega)
        have h17 : (10 : Nat) ^ 17 * 10 < 2 ^ 63 := by norm_num
        omega
      rw [if_pos h, if_pos hfit, ← pow_succ]
      exact ih (k + 1) hl (by omega) (by omega) (Or.inr (by simpa using h))
    · rw [if_neg h]
      exact ⟨k, rfl, by omega, h3⟩

/-- The fraction: digits are counted either by the leading zeros or by the size of the number. -/
theorem frac_count (n : Num) (ds : List Char) (hd : ∀ c ∈ ds, isDigit c = true) :
    (fracAfter n ds).lead = (n.lead && decide (∀ c ∈ ds, digit c = 0)) ∧
    ∃ zs, (fracAfter n ds).zeros = n.zeros + zs ∧ zs ≤ ds.length ∧
      (n.lead = false → zs = 0) ∧
      (n.lead = true → (∀ c ∈ ds, digit c = 0) → zs = ds.length) ∧
      (n.lead = true → ¬ (∀ c ∈ ds, digit c = 0) →
        zs < ds.length ∧ 10 ^ (ds.length - zs - 1) ≤ numVal ds ∧ numVal ds < 10 ^ (ds.length - zs))
       := by
  induction ds generalizing n with
  | nil =>
    exact ⟨by simp [fracAfter_nil], 0, by simp [fracAfter_nil], by simp, by simp, by simp, by simp⟩
  | cons c cs ih =>
    rw [fracAfter_cons]
    obtain ⟨h1, zs, h2, h3, h4, h5, h6⟩ := ih (fracStep n c) (fun c hc => hd c (by simp [hc]))
    have e1 : (fracStep n c).lead = (n.lead && digit c == 0) := rfl
    have e2 : (fracStep n c).zeros = if n.lead && digit c == 0 then n.zeros + 1 else n.zeros := rfl
    rw [e1] at h1 h4 h5 h6
    rw [e2] at h2
    have hnv : numVal (c :: cs) = digit c * 10 ^ cs.length + numVal cs := rfl
    have hlt := numVal_lt cs (fun c hc => hd c (by simp [hc]))
    constructor
    · rw [h1]
      by_cases hz : digit c = 0
      · simp [hz]
      · simp [hz]
    · cases hl : n.lead with
      | false =>
        simp only [hl, Bool.false_and, Bool.false_eq_true, if_false] at h2 h4
        exact ⟨0, by rw [h2, h4 trivial], by simp, fun _ => rfl, by simp, by simp⟩
      | true =>
        by_cases hz : digit c = 0
        · simp only [hl, hz, BEq.rfl, Bool.and_self, if_true] at h2 h5 h6
          refine ⟨zs + 1, by rw [h2]; omega, by simp; omega, by simp, ?_, ?_⟩
          · intro _ hall
            rw [h5 trivial (fun c hc => hall c (by simp [hc]))]; simp
          · intro _ hall
            have hcs : ¬ ∀ c ∈ cs, digit c = 0 := by
              intro hc
              apply hall
              intro d hdm
              rcases List.mem_cons.1 hdm with rfl | hdm
              · exact hz
              · exact hc d hdm
            obtain ⟨h7, h8, h9⟩ := h6 trivial hcs
            refine ⟨by simp; omega, ?_, ?_⟩
            · rw [hnv, hz, List.length_cons]
              have : cs.length + 1 - (zs + 1) - 1 = cs.length - zs - 1 := by omega
              rw [this]; omega
            · rw [hnv, hz, List.length_cons]
              have : cs.length + 1 - (zs + 1) = cs.length - zs := by omega
              rw [this]; omega
        · have hb : (digit c == 0) = false := by simp [hz]
          simp only [hl, hb, Bool.and_false, Bool.false_eq_true, if_false] at h2 h4
          refine ⟨0, by rw [h2, h4 trivial], by simp, by simp, ?_, ?_⟩
          · intro _ hall
            exact absurd (hall c (by simp)) hz
          · intro _ _
            refine ⟨by simp, ?_, numVal_lt (c :: cs) hd⟩
            simp only [List.length_cons, Nat.sub_zero, Nat.add_sub_cancel]
            rw [hnv]
            have : 1 ≤ digit c := by omega
            nlinarith [Nat.pos_of_ne_zero (pow_ne_zero cs.length (by norm_num : (10:Nat) ≠ 0))]

theorem numVal_zero (ds : List Char) (h : ∀ c ∈ ds, digit c = 0) : numVal ds = 0 := by
  induction ds with
  | nil => rfl
  | cons c cs ih =>
    have h1 : c.toNat - '0'.toNat = 0 := h c (by simp)
    rw [numVal, ih (fun c hc => h c (by simp [hc])), h1]; simp

/-- `lower / (normalizer * 10 ^ zeros)` is the value of the fraction. -/
theorem frac_value (n : Num) (ds : List Char) (hd : ∀ c ∈ ds, isDigit c = true)
    (hfit : numVal ds < 10 ^ 18) (hn : n.lower = 0) (hz : n.zeros = 0) (hl : n.lead = true) :
    ∃ m, Num.normalizer (fracAfter n ds).lower 20 1 = some m ∧
      ((fracAfter n ds).lower : ℚ) / (m * 10 ^ (fracAfter n ds).zeros)
        = (numVal ds : ℚ) / 10 ^ ds.length := by
  have hlow : (fracAfter n ds).lower = numVal ds := by
    rw [fracAfter_lower, hn]; simp [extend]
  obtain ⟨_, zs, h2, h3, _, h5, h6⟩ := frac_count n ds hd
  rw [hlow, h2, hz, Nat.zero_add]
  obtain ⟨j, hj, h7, h8⟩ := normalizer_spec (numVal ds) 20 0 hfit (by omega) (by omega) (Or.inl rfl)
  refine ⟨10 ^ j, by simpa using hj, ?_⟩
  by_cases hall : ∀ c ∈ ds, digit c = 0
  · rw [numVal_zero ds hall]; simp
  · obtain ⟨h9, h10, h11⟩ := h6 hl hall
    have hje : j = ds.length - zs := by
      apply le_antisymm
      · rcases h8 with h8 | h8
        · omega
        · have : 10 ^ (j - 1) < 10 ^ (ds.length - zs) := by omega
          have := (Nat.pow_lt_pow_iff_right (by norm_num : 1 < 10)).1 this
          omega
      · have : 10 ^ (ds.length - zs - 1) < 10 ^ j := by omega
        have := (Nat.pow_lt_pow_iff_right (by norm_num : 1 < 10)).1 this
        omega
    have : ((10 ^ j : ℕ) : ℚ) * 10 ^ zs = 10 ^ ds.length := by
      push_cast
      rw [← pow_add, hje]
      congr 1; omega
    rw [this]

end Marco.Lex

namespace Marco.Lex
open Spec

theorem digits_isDigit {ds : List Char} (h : Digits ds) : ∀ c ∈ ds, isDigit c = true :=
  fun c hc => digit_range.1 (h.2 c hc)

theorem extend_zero (ds : List Char) : extend 0 ds = numVal ds := by simp [extend]

theorem peek_append {ds : List Char} (h : ds ≠ []) (n : Char) : after n ds = peek ds := by
  cases ds with
  | nil => exact absurd rfl h
  | cons c cs => rfl

theorem isDigit_after {ds : List Char} (h : Digits ds) (n : Char) : isDigit (after n ds) = true := by
  cases ds with
  | nil => exact absurd rfl h.1
  | cons c cs => exact digits_isDigit h c (by simp)

theorem sign_ne_digit {x : Char} (h : isDigit x = true) : (x == '+' || x == '-') = false := by
  rw [digit_ne h _ (by decide), digit_ne h _ (by decide)]; rfl

/-- The value of a number of which the fraction has been read. -/
theorem get_value (n : Num) (q : ℚ) (k : ℤ) (m : Nat) (hm : Num.normalizer n.lower 20 1 = some m)
    (hq : (n.upper : ℚ) + n.lower / (m * 10 ^ n.zeros) = q)
    (hk : k = if n.hasExp then (if n.sign then (n.exp : ℤ) else -(n.exp : ℤ)) else 0) :
    n.get = some (q * 10 ^ k) := by
  simp only [Num.get, hm, Option.bind_eq_bind, Option.bind_some, Option.some.injEq, hq]
  subst hk
  split
  · split
    · simp
    · simp [zpow_neg]
  · simp

/-- An exponent after a fraction. -/
theorem feed_exponent (next : Char) (ex : List Char) (k : ℤ) (h : Exponent ex k)
    (hfit : k.natAbs < 2 ^ 63) (hn : isDigit next = false) (n : Num) (q : ℚ) (m : Nat)
    (hm : Num.normalizer n.lower 20 1 = some m)
    (hq : (n.upper : ℚ) + n.lower / (m * 10 ^ n.zeros) = q) (he : n.exp = 0) :
    feed next (.float n) ex = some (.normal, [.float (q * 10 ^ k)]) := by
  have key : ∀ (s : Bool) (ds : List Char), Digits ds → numVal ds < 2 ^ 63 →
      feed next (.exp (n.setSign s)) ds
        = some (.normal, [.float (q * 10 ^ (if s then (numVal ds : ℤ) else -(numVal ds : ℤ)))]) := by
    intro s ds hds hv
    rw [feed_exp next ds (digits_isDigit hds) hds.1 _ (by simpa [Num.setSign, he, extend_zero]) rfl,
      hn, if_neg (by simp),
      get_value { n.setSign s with exp := extend (n.setSign s).exp ds } q _ m hm hq rfl]
    simp [Num.setSign, he, extend_zero]
  have hspace : ∀ e : Char, e = 'e' ∨ e = 'E' →
      isSpace e = false ∧ (e == nul) = false ∧ isDigit e = false ∧ (e == 'E' || e == 'e') = true := by
    rintro e (rfl | rfl) <;> decide
  cases h with
  | plain e ds he' hds =>
    obtain ⟨h1, h2, h3, h4⟩ := hspace e he'
    have hstep : step (.float n) e (after next ds) = some (.exp (n.setSign true), none) := by
      simp [step, scanFloat, h1, h2, h3, h4, isDigit_after hds, sign_ne_digit (isDigit_after hds _)]
    rw [feed_cons, hstep, Option.bind_some, key true ds hds (by simpa using hfit)]
    simp
  | pos e ds he' hds =>
    obtain ⟨h1, h2, h3, h4⟩ := hspace e he'
    have hstep : step (.float n) e (after next ('+' :: ds)) = some (.expSign n, none) := by
      simp [step, scanFloat, h1, h2, h3, h4, after, peek]
    have hstep2 : step (.expSign n) '+' (after next ds) = some (.exp (n.setSign true), none) := by
      simp [step, scanExpSign, isDigit_after hds, show isSpace '+' = false by decide,
        show ('+' == nul) = false by decide]
    rw [feed_cons, hstep, Option.bind_some, feed_cons, hstep2, Option.bind_some,
      key true ds hds (by simpa using hfit)]
    simp
  | neg e ds he' hds =>
    obtain ⟨h1, h2, h3, h4⟩ := hspace e he'
    have hstep : step (.float n) e (after next ('-' :: ds)) = some (.expSign n, none) := by
      simp [step, scanFloat, h1, h2, h3, h4, after, peek]
    have hstep2 : step (.expSign n) '-' (after next ds) = some (.exp (n.setSign false), none) := by
      simp [step, scanExpSign, isDigit_after hds, show isSpace '-' = false by decide,
        show ('-' == nul) = false by decide]
    rw [feed_cons, hstep, Option.bind_some, feed_cons, hstep2, Option.bind_some,
      key false ds hds (by simpa using hfit)]
    simp

theorem feed_mantissa (us fs : List Char) (hu : Digits us) (hf : Digits fs)
    (hfu : numVal us < 2 ^ 63) (hff : numVal fs < 10 ^ 18) (next : Char) :
    ∃ (n : Num) (m : Nat), Num.normalizer n.lower 20 1 = some m ∧
      (n.upper : ℚ) + n.lower / (m * 10 ^ n.zeros) = numVal us + numVal fs / 10 ^ fs.length ∧
      n.hasExp = false ∧ n.exp = 0 ∧
      feed next .normal (us ++ '.' :: fs) =
        if (isDigit next || next == 'E' || next == 'e') = true then some (.float n, [])
        else n.get.map fun v => (.normal, [.float v]) := by
  set n0 : Num := { upper := numVal us } with hn0
  obtain ⟨m, hm, hv⟩ := frac_value n0 fs (digits_isDigit hf) hff rfl rfl rfl
  obtain ⟨r1, r2, r3, r4⟩ := fracAfter_rest n0 fs
  refine ⟨fracAfter n0 fs, m, hm, by rw [hv, r1], by rw [r2], by rw [r3], ?_⟩
  have hus : feed '.' .normal us = some (.number n0, []) := by
    obtain ⟨c, cs, rfl⟩ := List.exists_cons_of_ne_nil hu.1
    rw [start_number _ _ _ (digits_isDigit hu c (by simp)),
      feed_number _ _ (digits_isDigit hu) hu.1 _ (by simpa [extend_zero] using hfu)]
    simp [extend_zero, hn0]
  have hdot : step (.number n0) '.' (after next fs) = some (.float n0, none) := by
    simp [step, scanNumber, show isDigit '.' = false by decide]
  rw [feed_append]
  have : after next ('.' :: fs) = '.' := rfl
  rw [this, hus, Option.bind_some, feed_cons, hdot, Option.bind_some,
    feed_float _ _ (digits_isDigit hf) hf.1 n0 (by
      have : numVal fs < 2 ^ 63 := by
        have : (10:Nat) ^ 18 < 2 ^ 63 := by norm_num
        omega
      simpa [hn0, extend_zero] using this)]
  cases (isDigit next || next == 'E' || next == 'e')
  · cases (fracAfter n0 fs).get <;> simp
  · simp

end Marco.Lex
