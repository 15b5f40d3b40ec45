import Verif.Lemmas.Lexer

/-! # C44: numeric literals

Numbers that fit in 64 bits give exactly the token they denote and leave the rest of the text alone,
if the fraction is below `10 ^ 18` and the literal is not followed by `e`, `E` or (integers) `.`. The
claim without these two conditions is false.
-/

namespace Marco.Props
open Marco.Lex Spec

/-- Integers: maximal munch and the value. -/
def C44_integer_full : Prop := ∀ ds rest : List Char, Digits ds → numVal ds < 2 ^ 63 →
  NoDigit rest → NoExponent rest → peek rest ≠ '.' →
  run .normal (ds ++ rest) = (run .normal rest).map (.integer (numVal ds) :: ·)

/-- Real numbers without exponent: maximal munch and the value. -/
def C44_float_full : Prop := ∀ us fs rest : List Char, Digits us → Digits fs →
  numVal us < 2 ^ 63 → numVal fs < 2 ^ 63 → NoDigit rest → NoExponent rest →
  run .normal (us ++ '.' :: fs ++ rest)
    = (run .normal rest).map (.float (numVal us + numVal fs / 10 ^ fs.length) :: ·)

/-- Real numbers with exponent. -/
def C44_exponent_full : Prop := ∀ (us fs ex rest : List Char) (k : ℤ), Digits us → Digits fs →
  Exponent ex k → numVal us < 2 ^ 63 → numVal fs < 2 ^ 63 → k.natAbs < 2 ^ 63 → NoDigit rest →
  run .normal (us ++ '.' :: fs ++ ex ++ rest)
    = (run .normal rest).map
        (.float ((numVal us + numVal fs / 10 ^ fs.length) * 10 ^ k) :: ·)

theorem noExponent_else : NoExponent "else".toList := by
  intro e k cs h heq
  have hl : "else".toList = ['e', 'l', 's', 'e'] := by decide +kernel
  rw [hl] at heq
  cases h with
  | plain e ds he hds =>
    obtain ⟨d, ds', rfl⟩ := List.exists_cons_of_ne_nil hds.1
    simp only [List.cons_append, List.cons.injEq] at heq
    have := hds.2 d (by simp)
    rw [← heq.2.1] at this
    revert this; decide
  | pos e ds he hds => simp at heq
  | neg e ds he hds => simp at heq

/-- `12else`: an error; the `e` is taken for an exponent. -/
theorem C44_integer_full_false : ¬ C44_integer_full := by
  intro h
  have := h "12".toList "else".toList ⟨by decide, by decide⟩ (by decide +kernel)
    (by intro c cs hc
        have hl : "else".toList = ['e', 'l', 's', 'e'] := by decide +kernel
        rw [hl] at hc
        simp only [List.cons.injEq] at hc
        rw [← hc.1]; decide)
    noExponent_else (by decide +kernel)
  revert this
  decide +kernel

/-- `1.5else`: the `e` is lost. -/
theorem C44_float_full_false : ¬ C44_float_full := by
  intro h
  have := h "1".toList "5".toList "else".toList ⟨by decide, by decide⟩ ⟨by decide, by decide⟩
    (by decide +kernel) (by decide +kernel)
    (by intro c cs hc
        have hl : "else".toList = ['e', 'l', 's', 'e'] := by decide +kernel
        rw [hl] at hc
        simp only [List.cons.injEq] at hc
        rw [← hc.1]; decide)
    noExponent_else
  have hr : run .normal ("1".toList ++ '.' :: "5".toList ++ "else".toList)
      = some [.float (3/2), .ident ['l', 's', 'e'], .eof] := by decide +kernel
  rw [hr] at this
  have hr2 : run .normal "else".toList = some [.keyword ['e', 'l', 's', 'e'], .eof] := by decide +kernel
  rw [hr2] at this
  simp at this

/-- A fraction of nineteen digits that fits in 64 bits: the normalizer overflows. -/
theorem C44_exponent_full_false : ¬ C44_exponent_full := by
  intro h
  have := h "1".toList "1000000000000000000".toList "e1".toList [] (1 : Nat) ⟨by decide, by decide⟩
    ⟨by decide, by decide⟩
    (Exponent.plain 'e' ['1'] (Or.inl rfl) ⟨by decide, by decide⟩) (by decide +kernel)
    (by decide +kernel) (by decide) (by intro c cs hc; cases hc)
  have hr : run .normal ("1".toList ++ '.' :: "1000000000000000000".toList ++ "e1".toList ++ [])
      = none := by decide +kernel
  rw [hr] at this
  have hr2 : run .normal [] = some [.eof] := by decide +kernel
  rw [hr2] at this
  simp at this

theorem noDigit_peek {rest : List Char} (h : NoDigit rest) : isDigit (peek rest) = false := by
  cases rest with
  | nil => decide
  | cons c cs =>
    have := h c cs rfl
    rw [digit_range] at this
    simpa [peek] using this

/-- Missing with respect to `C44_integer_full`: integers followed by `e` or `E`. -/
theorem C44_integer_partial (ds rest : List Char) (hd : Digits ds) (hfit : numVal ds < 2 ^ 63)
    (h1 : NoDigit rest) (h2 : peek rest ≠ '.') (h3 : peek rest ≠ 'e') (h4 : peek rest ≠ 'E') :
    run .normal (ds ++ rest) = (run .normal rest).map (.integer (numVal ds) :: ·) := by
  have := run_append .normal ds rest .normal [.integer (numVal ds)] (by
    obtain ⟨c, cs, rfl⟩ := List.exists_cons_of_ne_nil hd.1
    rw [start_number _ _ _ (digits_isDigit hd c (by simp)),
      feed_number _ _ (digits_isDigit hd) hd.1 _ (by simpa [extend_zero] using hfit)]
    rw [if_neg (by simp [noDigit_peek h1, h2, h3, h4])]
    simp [extend_zero])
  rw [this]
  rfl

/-- Missing with respect to `C44_float_full`: literals followed by `e` or `E` and fractions of
`10 ^ 18` and more. -/
theorem C44_float_partial (us fs rest : List Char) (hu : Digits us) (hf : Digits fs)
    (hfu : numVal us < 2 ^ 63) (hff : numVal fs < 10 ^ 18)
    (h1 : NoDigit rest) (h3 : peek rest ≠ 'e') (h4 : peek rest ≠ 'E') :
    run .normal (us ++ '.' :: fs ++ rest)
      = (run .normal rest).map (.float (numVal us + numVal fs / 10 ^ fs.length) :: ·) := by
  obtain ⟨n, m, hm, hv, he, _, hfeed⟩ := feed_mantissa us fs hu hf hfu hff (peek rest)
  rw [if_neg (by simp [noDigit_peek h1, h3, h4]),
    get_value n _ 0 m hm hv (by simp [he])] at hfeed
  rw [run_append .normal _ rest .normal _ hfeed]
  simp

/-- Missing with respect to `C44_exponent_full`: fractions of `10 ^ 18` and more. -/
theorem C44_exponent_partial (us fs ex rest : List Char) (k : ℤ) (hu : Digits us) (hf : Digits fs)
    (hx : Exponent ex k) (hfu : numVal us < 2 ^ 63) (hff : numVal fs < 10 ^ 18)
    (hfx : k.natAbs < 2 ^ 63) (h1 : NoDigit rest) :
    run .normal (us ++ '.' :: fs ++ ex ++ rest)
      = (run .normal rest).map
          (.float ((numVal us + numVal fs / 10 ^ fs.length) * 10 ^ k) :: ·) := by
  obtain ⟨n, m, hm, hv, _, he, hfeed⟩ := feed_mantissa us fs hu hf hfu hff (after (peek rest) ex)
  have hpk : (isDigit (after (peek rest) ex) || after (peek rest) ex == 'E' ||
      after (peek rest) ex == 'e') = true := by
    cases hx with
    | plain e ds h _ => rcases h with rfl | rfl <;> simp [after, peek]
    | pos e ds h _ => rcases h with rfl | rfl <;> simp [after, peek]
    | neg e ds h _ => rcases h with rfl | rfl <;> simp [after, peek]
  rw [if_pos hpk] at hfeed
  have hex := feed_exponent (peek rest) ex k hx hfx (noDigit_peek h1) n _ m hm hv he
  have hall : feed (peek rest) .normal (us ++ '.' :: fs ++ ex)
      = some (.normal, [.float ((numVal us + numVal fs / 10 ^ fs.length) * 10 ^ k)]) := by
    rw [feed_append, hfeed, Option.bind_some, hex]
    simp
  rw [run_append .normal _ rest .normal _ hall]
  simp

example : run .normal ("3".toList ++ '.' :: "050".toList ++ "e-2".toList ++ ";".toList)
    = (run .normal ";".toList).map
        (.float ((numVal "3".toList + numVal "050".toList / 10 ^ ("050".toList).length)
          * 10 ^ (-(numVal ['2'] : ℤ))) :: ·) :=
  C44_exponent_partial _ _ _ _ _ ⟨by decide, by decide⟩ ⟨by decide, by decide⟩
    (Exponent.neg 'e' ['2'] (Or.inl rfl) ⟨by decide, by decide⟩)
    (by decide +kernel) (by decide +kernel) (by decide)
    (by intro c cs hc
        have hl : ";".toList = [';'] := by decide +kernel
        rw [hl] at hc
        simp only [List.cons.injEq] at hc
        rw [← hc.1]; decide)

example : run .normal ("9223372036854775807".toList ++ [])
    = some [.integer 9223372036854775807, .eof] := by
  rw [C44_integer_partial _ _ ⟨by decide, by decide⟩ (by decide +kernel)
    (by intro c cs hc; cases hc) (by decide +kernel) (by decide +kernel)
    (by decide +kernel)]
  decide +kernel

end Marco.Props
