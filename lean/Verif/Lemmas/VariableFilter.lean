import Verif.Spec.VariableFilter
import Verif.Lemmas.Lexer

/-! # The variable filter: helper lemmas -/

namespace Marco.VF
open Spec
open Marco.Lex (isDigit isNonDigit isSpace digit nul addDigit peek after after_nul after_append
  digit_range digit_ne digit_notSpace digit_notNonDigit extend extend_cons extend_zero le_extend
  addDigit_ok digits_isDigit)

theorem feed_cons (n : Char) (st : St) (c : Char) (cs : List Char) :
    feed n st (c :: cs) = (step st c (after n cs)).bind fun p =>
      (feed n p.1 cs).map fun q => (q.1, p.2.toList ++ q.2) := by
  simp only [feed, after, Option.bind_eq_bind]
  congr 1
  funext p
  cases feed n p.1 cs <;> rfl

theorem feed_append (n : Char) (st : St) (a b : List Char) :
    feed n st (a ++ b) = (feed (after n b) st a).bind fun p =>
      (feed n p.1 b).map fun q => (q.1, p.2 ++ q.2) := by
  induction a generalizing st with
  | nil => simp [feed]
  | cons c cs ih =>
    rw [List.cons_append, feed_cons, feed_cons, after_append]
    cases step st c (after (after n b) cs) with
    | none => rfl
    | some p =>
      simp only [Option.bind_some, ih]
      cases feed (after n b) p.1 cs with
      | none => rfl
      | some q =>
        simp only [Option.bind_some, Option.map_some]
        cases feed n q.1 b with
        | none => rfl
        | some r => simp

/-- Two parts, each of them leaving the lexer between tokens. -/
theorem feed_parts {n : Char} {a b : List Char} {ts us : List Tok}
    (ha : feed (after n b) .normal a = some (.normal, ts))
    (hb : feed n .normal b = some (.normal, us)) :
    feed n .normal (a ++ b) = some (.normal, ts ++ us) := by
  rw [feed_append, ha, Option.bind_some, hb]; rfl

/-- A single symbol. -/
theorem feed_sym (n c : Char) (h : c ∈ ['(', ')', '[', ']', ',', ';', ':', '$']) :
    feed n .normal [c] = some (.normal, [symTok c]) := by
  have : step .normal c (after n []) = some (.normal, some (symTok c)) := by
    simp only [List.mem_cons, List.not_mem_nil, or_false] at h
    rcases h with rfl | rfl | rfl | rfl | rfl | rfl | rfl | rfl <;> rfl
  rw [feed_cons, this]; rfl

/-- The character ends an identifier. -/
def EndId (n : Char) : Prop := isDigit n = false ∧ isNonDigit n = false ∧ n ≠ '.'

theorem letter_iff {c : Char} : Letter c ↔ isNonDigit c = true := by
  simp [Letter, isNonDigit, Char.le_def, or_assoc]

theorem letter_notSpace {c : Char} (h : isNonDigit c = true) : isSpace c = false := by
  by_contra hc
  simp only [isSpace, Bool.not_eq_false, Bool.or_eq_true, beq_iff_eq] at hc
  rcases hc with (((((rfl | rfl) | rfl) | rfl) | rfl) | rfl) <;> simp [isNonDigit] at h

theorem feed_ident (n : Char) (hn : EndId n) (cs : List Char) (hne : cs ≠ [])
    (h : ∀ d ∈ cs.tail, isDigit d = true ∨ isNonDigit d = true ∨ d = '.') (s : Name) :
    feed n (.ident s) cs = some (.normal, [wordTok (s ++ cs)]) := by
  induction cs generalizing s with
  | nil => exact absurd rfl hne
  | cons c cs ih =>
    rw [feed_cons]
    cases cs with
    | nil =>
      obtain ⟨h1, h2, h3⟩ := hn
      simp [step, scanId, after, h1, h2, h3, feed]
    | cons d ds =>
      have hd := h d (by simp)
      have : step (.ident s) c (after n (d :: ds)) = some (.ident (s ++ [c]), none) := by
        simp only [step, scanId, after, List.isEmpty_cons, Bool.false_eq_true, if_false, peek]
        rcases hd with hd | hd | hd <;> simp [hd]
      rw [this, Option.bind_some, ih (by simp) (fun x hx => h x (by
        simp only [List.tail_cons] at hx ⊢; exact List.mem_cons_of_mem _ hx))]
      simp

theorem feed_name (n : Char) (hn : EndId n) (s : Name) (c : Char) (cs : List Char) (hs : s = c :: cs)
    (hc : Letter c) (h : ∀ d ∈ cs, Letter d ∨ ('0' ≤ d ∧ d ≤ '9') ∨ d = '.') :
    feed n .normal s = some (.normal, [wordTok s]) := by
  subst hs
  have hc' := letter_iff.1 hc
  have hstart : feed n .normal (c :: cs) = feed n (.ident []) (c :: cs) := by
    rw [feed_cons, feed_cons]
    congr 1
    simp [step, scanNormal, letter_notSpace hc', hc']
  rw [hstart, feed_ident n hn (c :: cs) (by simp)]
  · rfl
  · intro d hd
    rcases h d hd with h | h | h
    · exact Or.inr (Or.inl (letter_iff.1 h))
    · exact Or.inl (digit_range.1 h)
    · exact Or.inr (Or.inr h)

theorem feed_num (next : Char) (hn : isDigit next = false) (ds : List Char)
    (hd : ∀ c ∈ ds, isDigit c = true) (hne : ds ≠ []) :
    ∀ v : Nat, extend v ds < 2 ^ 63 →
    feed next (.num v) ds = some (.normal, [.integer (extend v ds)]) := by
  induction ds with
  | nil => exact absurd rfl hne
  | cons c cs ih =>
    intro v hfit
    have hc : isDigit c = true := hd c (by simp)
    rw [extend_cons] at hfit ⊢
    have hadd : addDigit v (digit c) = some (v * 10 + digit c) := addDigit_ok (le_extend _ cs) hfit
    rw [feed_cons]
    cases cs with
    | nil =>
      have h1 : step (.num v) c (after next []) = some (.normal, some (.integer (v * 10 + digit c))) := by
        simp [step, scanNum, after, hc, hadd, hn]
      rw [h1]
      simp [feed, extend, numVal]
    | cons d ds' =>
      have hdd : isDigit d = true := hd d (by simp)
      have h1 : step (.num v) c (after next (d :: ds')) = some (.num (v * 10 + digit c), none) := by
        simp [step, scanNum, after, peek, hc, hadd, hdd]
      rw [h1, Option.bind_some,
        ih (fun c hc => hd c (List.mem_cons_of_mem _ hc)) (by simp) _ hfit]
      simp

theorem feed_number (next : Char) (hn : isDigit next = false) (ds : List Char) (hd : Digits ds)
    (hfit : numVal ds < 2 ^ 63) :
    feed next .normal ds = some (.normal, [.integer (numVal ds)]) := by
  obtain ⟨c, cs, rfl⟩ := List.exists_cons_of_ne_nil hd.1
  have hc := digits_isDigit hd c (by simp)
  have hstart : feed next .normal (c :: cs) = feed next (.num 0) (c :: cs) := by
    rw [feed_cons, feed_cons]
    congr 1
    simp [step, scanNormal, digit_notSpace hc, digit_notNonDigit hc, hc]
  rw [hstart, feed_num next hn _ (digits_isDigit hd) hd.1 0 (by rwa [extend_zero]), extend_zero]

theorem feed_regex (n : Char) (r s : Name) (h1 : '/' ∉ r) (h2 : nul ∉ r) :
    feed n (.regex s) (r ++ ['/']) = some (.normal, [.regex (s ++ r)]) := by
  induction r generalizing s with
  | nil => simp [feed_cons, step, scanRegex, feed]
  | cons c cs ih =>
    have hc1 : c ≠ '/' := fun h => h1 (by simp [h])
    have hc2 : c ≠ nul := fun h => h2 (by simp [h])
    rw [List.cons_append, feed_cons]
    simp only [step, scanRegex, beq_iff_eq, hc1, hc2, if_false, Option.bind_some]
    rw [ih _ (fun h => h1 (by simp [h])) (fun h => h2 (by simp [h]))]
    simp

/-! ### The tokens of an element -/

/-- The token of a bound. -/
def boundTok : Option Nat → Tok
  | none => .dollar
  | some n => .integer n

/-- The tokens of a range. -/
def rangeToks (r : Option Nat × Option Nat) : List Tok := [boundTok r.1, .colons, boundTok r.2]

/-- The tokens of a list of ranges. -/
def rangesToks : List (Option Nat × Option Nat) → List Tok
  | [] => []
  | [r] => rangeToks r
  | r :: rs => rangeToks r ++ .comma :: rangesToks rs

/-- The tokens of an element. -/
def itemToks : Item → List Tok
  | .var s => [.ident s]
  | .array s rs => [.ident s, .lsquare] ++ rangesToks rs ++ [.rsquare]
  | .der s => [.der, .lpar, .ident s, .rpar]
  | .regex r => [.regex r]

theorem feed_bound (n : Char) (hn : isDigit n = false) (b : Option Nat) (t : List Char)
    (h : BoundText b t) (hb : BoundOk (2 ^ 63) b) : feed n .normal t = some (.normal, [boundTok b]) := by
  cases h with
  | unbounded => exact feed_sym n '$' (by simp)
  | number ds hd => exact feed_number n hn t hd (hb _ rfl)

theorem feed_range (n : Char) (hn : isDigit n = false) (r : Option Nat × Option Nat) (t : List Char)
    (h : RangeText r t) (h1 : BoundOk (2 ^ 63) r.1) (h2 : BoundOk (2 ^ 63) r.2) :
    feed n .normal t = some (.normal, rangeToks r) := by
  cases h with
  | mk lo hi t u ht hu =>
    refine feed_parts (ts := [boundTok lo]) (us := [.colons, boundTok hi])
      (feed_bound _ (show isDigit ':' = false by decide) _ _ ht h1) ?_
    exact feed_parts (a := [':']) (ts := [.colons]) (us := [boundTok hi])
      (feed_sym _ ':' (by simp)) (feed_bound n hn _ _ hu h2)

theorem feed_ranges (n : Char) (hn : isDigit n = false) (rs : List (Option Nat × Option Nat))
    (t : List Char) (h : RangesText rs t)
    (hb : ∀ r ∈ rs, BoundOk (2 ^ 63) r.1 ∧ BoundOk (2 ^ 63) r.2) :
    feed n .normal t = some (.normal, rangesToks rs) := by
  induction h with
  | one r t h => exact feed_range n hn r t h (hb r (by simp)).1 (hb r (by simp)).2
  | cons r rs t u h hu ih =>
    have hrt : rangesToks (r :: rs) = rangeToks r ++ ([.comma] ++ rangesToks rs) := by
      cases rs with
      | nil => cases hu
      | cons r' rs' => rfl
    rw [hrt]
    refine feed_parts (feed_range _ (show isDigit ',' = false by decide) r t h
      (hb r (by simp)).1 (hb r (by simp)).2) ?_
    exact feed_parts (a := [',']) (ts := [.comma]) (feed_sym _ ',' (by simp))
      (ih fun r hr => hb r (by simp [hr]))

theorem wordTok_legal {s : Name} (h : s ≠ ['d', 'e', 'r']) : wordTok s = .ident s := by
  simp [wordTok, h]

theorem feed_legal (n : Char) (hn : EndId n) (s : Name) (h : LegalName s) :
    feed n .normal s = some (.normal, [.ident s]) := by
  obtain ⟨h1, c, cs, h2, h3, h4⟩ := h
  rw [feed_name n hn s c cs h2 h3 h4, wordTok_legal h1]

theorem feed_item (valid : Name → Bool) (n : Char) (hn : EndId n) (i : Item) (t : List Char)
    (h : ItemText i t) (hl : LegalItem valid (2 ^ 63) i) :
    feed n .normal t = some (.normal, itemToks i) := by
  have hp : ∀ c ∈ ['(', ')', '[', ']'], EndId c := by
    intro c hc
    simp only [List.mem_cons, List.not_mem_nil, or_false] at hc
    rcases hc with rfl | rfl | rfl | rfl <;> exact ⟨by decide, by decide, by decide⟩
  cases h with
  | var => exact feed_legal n hn t hl
  | array name rs t h =>
    obtain ⟨h1, h2, h3⟩ := hl
    have hj : itemToks (.array name rs) = [.ident name] ++ [.lsquare] ++ rangesToks rs ++ [.rsquare] := by
      simp [itemToks]
    rw [hj]
    refine feed_parts (feed_parts (feed_parts (feed_legal _ (hp '[' (by simp)) _ h1)
      (feed_sym _ '[' (by simp))) (feed_ranges _ (show isDigit ']' = false by decide) rs t h h3))
      (feed_sym _ ']' (by simp))
  | der name =>
    have hd : ∀ m, after m (['('] ++ name ++ [')']) = '(' := fun _ => rfl
    have hj : itemToks (.der name) = [.der] ++ ([.lpar] ++ [.ident name] ++ [.rpar]) := rfl
    have ht : ['d', 'e', 'r', '('] ++ name ++ [')'] = ['d', 'e', 'r'] ++ (['('] ++ name ++ [')']) := by
      simp
    rw [hj, ht]
    refine feed_parts ?_ (feed_parts (feed_parts (feed_sym _ '(' (by simp))
      (feed_legal _ (hp ')' (by simp)) _ hl)) (feed_sym _ ')' (by simp)))
    rw [hd]
    decide +kernel
  | regex r =>
    obtain ⟨h1, h2, h3, h4⟩ := hl
    have : ['/'] ++ r ++ ['/'] = '/' :: (r ++ ['/']) := by simp
    rw [this, feed_cons]
    have hs : ∀ m, step .normal '/' m = some (.regex [], none) := fun _ => rfl
    rw [hs, Option.bind_some, feed_regex n r [] h2 h3]
    rfl

/-- The tokens of a filter, where the semicolon may follow an element. -/
inductive FilterToks : List Item → List Tok → Prop
  | nil : FilterToks [] [.eof]
  | one (i : Item) : FilterToks [i] (itemToks i ++ [.eof])
  | cons (i : Item) (is : List Item) (ts : List Tok) : FilterToks is ts →
      FilterToks (i :: is) (itemToks i ++ .semicolons :: ts)

theorem lex_feed {t : List Char} {ts : List Tok} (h : feed nul .normal t = some (.normal, ts)) :
    lex t = some (ts ++ [.eof]) := by
  simp only [lex, h, Option.bind_eq_bind, Option.bind_some]
  rfl

theorem lex_filter (valid : Name → Bool) (items : List Item) (t : List Char) (h : FilterText items t)
    (hl : ∀ i ∈ items, LegalItem valid (2 ^ 63) i) :
    ∃ ts, feed nul .normal t = some (.normal, ts) ∧ FilterToks items (ts ++ [.eof]) := by
  induction h with
  | nil => exact ⟨[], rfl, FilterToks.nil⟩
  | one i t h =>
    exact ⟨itemToks i, feed_item valid nul ⟨by decide, by decide, by decide⟩ i t h (hl i (by simp)),
      FilterToks.one i⟩
  | cons i is t u h hu ih =>
    obtain ⟨ts, h1, h2⟩ := ih (fun i hi => hl i (by simp [hi]))
    refine ⟨itemToks i ++ ([.semicolons] ++ ts), ?_, ?_⟩
    · refine feed_parts (feed_item valid ';' ⟨by decide, by decide, by decide⟩ i t h (hl i (by simp))) ?_
      exact feed_parts (a := [';']) (feed_sym _ ';' (by simp)) h1
    · have := FilterToks.cons i is _ h2
      simpa using this

/-! ### The parser -/

theorem toInt_small {n : Nat} (h : n < 2 ^ 31) : toInt n = n := by
  unfold toInt
  have e : (2:Nat) ^ 31 = 2147483648 := by norm_num
  rw [e] at h
  have e : (2:Nat) ^ 32 = 4294967296 := by norm_num
  rw [e, Int.bmod_def]
  split <;> omega

theorem parse_bound (b : Option Nat) (h : BoundOk (2 ^ 31) b) (ts : List Tok) :
    parseArrayIndex (boundTok b :: ts) = some (boundVal b, ts) := by
  cases b with
  | none => rfl
  | some n => simp [boundTok, parseArrayIndex, boundVal, toInt_small (h n rfl)]

/-- The stored form of a range. -/
def storedRange (r : Option Nat × Option Nat) : VRange := ⟨boundVal r.1, boundVal r.2⟩

theorem parse_range (r : Option Nat × Option Nat) (h1 : BoundOk (2 ^ 31) r.1)
    (h2 : BoundOk (2 ^ 31) r.2) (ts : List Tok) :
    parseArrayRange (rangeToks r ++ ts) = some (storedRange r, ts) := by
  simp [rangeToks, parseArrayRange, parse_bound _ h1, parse_bound _ h2, storedRange]

theorem parse_ranges (rs : List (Option Nat × Option Nat))
    (hb : ∀ r ∈ rs, BoundOk (2 ^ 31) r.1 ∧ BoundOk (2 ^ 31) r.2) (ts : List Tok) (hne : rs ≠ []) :
    ∀ fuel, rs.length < fuel →
    parseRanges fuel (.comma :: rangesToks rs ++ .rsquare :: ts) = some (rs.map storedRange, ts) := by
  induction rs with
  | nil => exact absurd rfl hne
  | cons r rs ih =>
    intro fuel hf
    obtain ⟨fuel, rfl⟩ : ∃ k, fuel = k + 1 := ⟨fuel - 1, by simp at hf; omega⟩
    have hr := hb r (by simp)
    cases rs with
    | nil =>
      obtain ⟨fuel, rfl⟩ : ∃ k, fuel = k + 1 := ⟨fuel - 1, by simp at hf; omega⟩
      simp [rangesToks, parseRanges, parse_range r hr.1 hr.2]
    | cons r' rs' =>
      have ih' := ih (fun r hr => hb r (List.mem_cons_of_mem _ hr)) (by simp) fuel
        (by simp at hf ⊢; omega)
      have : rangesToks (r :: r' :: rs') = rangeToks r ++ .comma :: rangesToks (r' :: rs') := rfl
      rw [List.cons_append] at ih'
      rw [this, List.cons_append, List.append_assoc, List.cons_append]
      simp only [parseRanges, parse_range r hr.1 hr.2, Option.bind_eq_bind, Option.bind_some]
      rw [ih']
      simp

theorem length_rangesToks (rs : List (Option Nat × Option Nat)) :
    rs.length ≤ (rangesToks rs).length := by
  induction rs with
  | nil => simp
  | cons r rs ih =>
    cases rs with
    | nil => simp [rangesToks, rangeToks]
    | cons r' rs' =>
      have : rangesToks (r :: r' :: rs') = rangeToks r ++ .comma :: rangesToks (r' :: rs') := rfl
      rw [this]
      simp only [List.length_cons, List.length_append] at ih ⊢
      omega

theorem parse_array (rs : List (Option Nat × Option Nat)) (hne : rs ≠ [])
    (hb : ∀ r ∈ rs, BoundOk (2 ^ 31) r.1 ∧ BoundOk (2 ^ 31) r.2) (ts : List Tok) :
    parseArray (rangesToks rs ++ .rsquare :: ts) = some (rs.map storedRange, ts) := by
  cases rs with
  | nil => exact absurd rfl hne
  | cons r rs =>
    have hr := hb r (by simp)
    cases rs with
    | nil => simp [rangesToks, parseArray, parse_range r hr.1 hr.2, parseRanges]
    | cons r' rs' =>
      have : rangesToks (r :: r' :: rs') = rangeToks r ++ .comma :: rangesToks (r' :: rs') := rfl
      rw [this]
      have hl := length_rangesToks (r' :: rs')
      have hp := parse_ranges (r' :: rs') (fun r hr => hb r (List.mem_cons_of_mem _ hr)) ts (by simp)
        ((Tok.comma :: rangesToks (r' :: rs') ++ .rsquare :: ts).length + 1)
        (by simp only [List.cons_append, List.length_cons, List.length_append] at hl ⊢; omega)
      simp only [parseArray, List.append_assoc, parse_range r hr.1 hr.2, Option.bind_eq_bind,
        Option.bind_some]
      rw [hp]
      rfl

/-- The effect of an element on the filter. -/
def addItem (f : Filter) : Item → Filter
  | .var s => f.addVariable ⟨s, []⟩
  | .array s rs => f.addVariable ⟨s, rs.map storedRange⟩
  | .der s => f.addDerivative ⟨s, []⟩
  | .regex r => f.addRegex r

/-- What follows an element. -/
def Sep (ts : List Tok) : Prop := ∃ t us, ts = t :: us ∧ (t = .semicolons ∨ t = .eof)

theorem parse_item (valid : Name → Bool) (f : Filter) (i : Item) (hl : LegalItem valid (2 ^ 31) i)
    (ts : List Tok) (hs : Sep ts) :
    parseListElement valid f (itemToks i ++ ts) = some (addItem f i, ts) := by
  obtain ⟨t, us, rfl, ht⟩ := hs
  cases i with
  | var s => rcases ht with rfl | rfl <;> rfl
  | array s rs =>
    obtain ⟨h1, h2, h3⟩ := hl
    have : itemToks (.array s rs) ++ t :: us
        = .ident s :: .lsquare :: (rangesToks rs ++ .rsquare :: t :: us) := by simp [itemToks]
    rw [this]
    simp only [parseListElement, parse_array rs h2 h3, Option.bind_eq_bind, Option.bind_some, addItem]
  | der s => rfl
  | regex r =>
    obtain ⟨h1, h2, h3, h4⟩ := hl
    simp [itemToks, parseListElement, h1, h4, addItem]

/-- An element begins with a token that is neither a semicolon nor the end. -/
theorem itemToks_head (i : Item) : ∃ t us, itemToks i = t :: us ∧ t ≠ .semicolons ∧ t ≠ .eof := by
  cases i <;> exact ⟨_, _, rfl, by simp, by simp⟩

theorem parse_step (valid : Name → Bool) (fuel : Nat) (f : Filter) (i : Item)
    (hl : LegalItem valid (2 ^ 31) i) (ts : List Tok) (hs : Sep ts) :
    parse valid (fuel + 1) f (itemToks i ++ ts) = parse valid fuel (addItem f i) ts := by
  have hp := parse_item valid f i hl ts hs
  obtain ⟨t, us, h1, h2, h3⟩ := itemToks_head i
  rw [h1] at hp ⊢
  rw [List.cons_append] at hp ⊢
  rw [parse]
  · simp [hp]
  · intro h; cases h
  · rintro x h; cases h; exact h3 rfl
  · rintro x h; cases h; exact h2 rfl

theorem filterToks_sep {items : List Item} {ts : List Tok} (h : FilterToks items ts) : ts ≠ [] := by
  cases h <;> simp

theorem parse_filter (valid : Name → Bool) (items : List Item)
    (hl : ∀ i ∈ items, LegalItem valid (2 ^ 31) i) (ts : List Tok) (h : FilterToks items ts) :
    ∀ (f : Filter) (fuel : Nat), ts.length < fuel →
    parse valid fuel f ts = some (items.foldl addItem f) := by
  induction h with
  | nil =>
    intro f fuel hf
    obtain ⟨fuel, rfl⟩ : ∃ k, fuel = k + 1 := ⟨fuel - 1, by omega⟩
    rfl
  | one i =>
    intro f fuel hf
    obtain ⟨t, us, h1, _, _⟩ := itemToks_head i
    have hlen : (itemToks i ++ [Tok.eof]).length = us.length + 2 := by simp [h1]
    obtain ⟨fuel, rfl⟩ : ∃ k, fuel = k + 1 := ⟨fuel - 1, by omega⟩
    obtain ⟨fuel, rfl⟩ : ∃ k, fuel = k + 1 := ⟨fuel - 1, by omega⟩
    rw [parse_step valid _ f i (hl i (by simp)) [.eof] ⟨_, _, rfl, Or.inr rfl⟩]
    rfl
  | cons i is ts h ih =>
    intro f fuel hf
    obtain ⟨t, us, h1, _, _⟩ := itemToks_head i
    have hlen : (itemToks i ++ Tok.semicolons :: ts).length = us.length + ts.length + 2 := by
      simp [h1]; omega
    obtain ⟨fuel, rfl⟩ : ∃ k, fuel = k + 1 := ⟨fuel - 1, by omega⟩
    obtain ⟨fuel, rfl⟩ : ∃ k, fuel = k + 1 := ⟨fuel - 1, by omega⟩
    rw [parse_step valid _ f i (hl i (by simp)) _ ⟨_, _, rfl, Or.inl rfl⟩]
    rw [show parse valid (fuel + 1) (addItem f i) (.semicolons :: ts)
        = parse valid fuel (addItem f i) ts from rfl]
    rw [ih (fun i hi => hl i (by simp [hi])) _ fuel (by omega)]
    rfl

theorem push_filter (l : List Tracker) (m : Name → List Tracker)
    (hm : ∀ n, m n = l.filter (·.name = n)) (t : Tracker) (n : Name) :
    push m t n = (l ++ [t]).filter (·.name = n) := by
  simp only [push, hm, List.filter_append]
  by_cases h : n = t.name
  · simp [h]
  · have : t.name ≠ n := fun h' => h h'.symm
    simp [h, this]

theorem denotes_add (f : Filter) (is : List Item) (h : FilterDenotes f is) (i : Item) :
    FilterDenotes (addItem f i) (is ++ [i]) := by
  obtain ⟨h1, h2, h3, h4⟩ := h
  cases i with
  | var s =>
    refine ⟨fun n => ?_, fun n => ?_, ?_, by simp [addItem, Filter.addVariable]⟩
    · rw [List.filterMap_append]; exact push_filter _ _ h1 _ n
    · simpa [addItem, Filter.addVariable, List.filterMap_append, List.filterMap_cons, Item.derTracker?] using h2 n
    · simpa [addItem, Filter.addVariable, List.filterMap_append, List.filterMap_cons, Item.regex?] using h3
  | array s rs =>
    refine ⟨fun n => ?_, fun n => ?_, ?_, by simp [addItem, Filter.addVariable]⟩
    · rw [List.filterMap_append]; exact push_filter _ _ h1 _ n
    · simpa [addItem, Filter.addVariable, List.filterMap_append, List.filterMap_cons, Item.derTracker?] using h2 n
    · simpa [addItem, Filter.addVariable, List.filterMap_append, List.filterMap_cons, Item.regex?] using h3
  | der s =>
    refine ⟨fun n => ?_, fun n => ?_, ?_, by simp [addItem, Filter.addDerivative]⟩
    · simpa [addItem, Filter.addDerivative, List.filterMap_append, List.filterMap_cons, Item.tracker?] using h1 n
    · rw [List.filterMap_append]; exact push_filter _ _ h2 _ n
    · simpa [addItem, Filter.addDerivative, List.filterMap_append, List.filterMap_cons, Item.regex?] using h3
  | regex r =>
    refine ⟨fun n => ?_, fun n => ?_, ?_, by simp [addItem, Filter.addRegex]⟩
    · simpa [addItem, Filter.addRegex, List.filterMap_append, List.filterMap_cons, Item.tracker?] using h1 n
    · simpa [addItem, Filter.addRegex, List.filterMap_append, List.filterMap_cons, Item.derTracker?] using h2 n
    · simp [addItem, Filter.addRegex, List.filterMap_append, Item.regex?, h3]

theorem denotes_foldl (is js : List Item) (f : Filter) (h : FilterDenotes f js) :
    FilterDenotes (is.foldl addItem f) (js ++ is) := by
  induction is generalizing f js with
  | nil => simpa using h
  | cons i is ih =>
    rw [List.foldl_cons]
    have := ih (js ++ [i]) (addItem f i) (denotes_add f js h i)
    simpa using this

end Marco.VF
