import Verif.Lemmas.MathFunctions

/-!
# C67: the mathematical functions are folded to what Modelica defines

The functions `abs`, `ceil`, `floor`, `integer`, `sign`, `div`, `mod`, `rem`, `max`, `min` and the power, applied to constants, are
replaced with constants while the model is compiled. These must be the values that Modelica defines (`Verif/Spec/MathFunctions.lean`).
-/

namespace Marco.Props
open Marco.Fold Marco.Spec

/-- The full property: for operands of the types `Integer` and `Real` that are numbers, a function with a value that fits into 64 bits is
folded to this value. -/
def C67_full : Prop :=
  ∀ (F : Type) (fl : MathFloats F) (num : F → Option ℚ) (rnd : ℚ → ℚ), MathLaws fl num rnd →
    (∀ (f : Fn1) (a : Const F) (p : ℚ), a.ty ≠ .bool → Const64 a → constNum num a = some p → |numFn1 f p| < 2 ^ 63 →
      ∃ v, foldFn1 fl f (fnType1 f a.ty) a = .folded v ∧ Represents num rnd v (numFn1 f p)) ∧
    (∀ (f : Fn2) (a b : Const F) (p q r : ℚ), a.ty ≠ .bool → b.ty ≠ .bool → Const64 a → Const64 b →
      constNum num a = some p → constNum num b = some q → numFn2 f p q = some r → |r| < 2 ^ 63 →
      ∃ v, foldFn2 fl f (fnType2 f a.ty b.ty) a b = .folded v ∧ Represents num rnd v r)

/-- `mod(2^53 + 1, 2)` is 1, but is folded to 0. -/
theorem C67_mod_false {F : Type} {fl : MathFloats F} {num : F → Option ℚ} {rnd : ℚ → ℚ} (hi : MathLaws fl num rnd) :
    foldFn2 fl .mod (fnType2 .mod .int .int) (.int (2 ^ 53 + 1)) (.int 2) = .folded (.int 0) ∧
      numFn2 .mod (2 ^ 53 + 1) 2 = some 1 := by
  constructor
  · obtain ⟨k, hk⟩ := hi.rounding.even (2 ^ 53 + 1) (by norm_num) (by norm_num)
    have hlow : (2 ^ 53 : ℚ) ≤ 2 * k := by
      have := hi.rounding.mono ((2 ^ 53 : Int) : ℚ) ((2 ^ 53 + 1 : Int) : ℚ) (by push_cast; norm_num)
      rw [hi.rounding.exact (2 ^ 53) (by norm_num), hk] at this
      push_cast at this
      linarith
    have hup : (2 * k : ℚ) ≤ 2 ^ 54 := by
      have := hi.rounding.error ((2 ^ 53 + 1 : Int) : ℚ)
      rw [hk, abs_le] at this
      have h2 := this.2
      rw [abs_of_nonneg (by push_cast; norm_num)] at h2
      push_cast at h2
      linarith
    have hx : num (fl.ofInt (2 ^ 53 + 1)) = some (2 * k : ℚ) := by
      rw [hi.ofInt_num _ (by norm_num), hk]
    have h2 : num (fl.ofInt 2) = some 2 := by simpa using ofInt_exact hi.toIeee 2 (by norm_num)
    have e1 : (2 * k : ℚ) / 2 = k := by ring
    have hk0 : (0 : ℚ) ≤ k := by linarith
    have hd := hi.div_num _ _ _ _ hx h2 (by norm_num)
      (.inr (by rw [e1, abs_of_nonneg hk0]; refine le_trans ?_ (show (2 : ℚ) ^ 52 ≤ k by linarith); norm_num))
      (by rw [e1, abs_of_nonneg hk0]; refine le_trans (show (k : ℚ) ≤ 2 ^ 53 by linarith) ?_; norm_num)
    have hkb : |k| ≤ 2 ^ 53 := by
      have h1 : (k : ℚ) ≤ 2 ^ 53 := by linarith
      have h1' : k ≤ 2 ^ 53 := by exact_mod_cast h1
      have h0' : 0 ≤ k := by exact_mod_cast hk0
      rw [abs_of_nonneg h0']; exact h1'
    rw [e1, hi.rounding.exact k hkb] at hd
    have hf := hi.floor_num _ _ hd
    rw [Int.floor_intCast] at hf
    have e2 : rnd ((k : ℚ) * 2) = k * 2 := by
      have : (k : ℚ) * 2 = rnd ((2 ^ 53 + 1 : Int) : ℚ) := by rw [hk]; ring
      rw [this, hi.idem]
    have hm := hi.mul_exact _ _ _ _ hf h2 e2
      (.inr (by rw [abs_of_nonneg (by linarith)]; refine le_trans ?_ (show (2 : ℚ) ^ 53 ≤ k * 2 by linarith); norm_num))
      (by rw [abs_of_nonneg (by linarith)]; refine le_trans (show (k * 2 : ℚ) ≤ 2 ^ 54 by linarith) ?_; norm_num)
    have e3 : (2 * k : ℚ) - k * 2 = 0 := by ring
    have hs := hi.sub_exact _ _ _ _ hx hm (by rw [e3]; exact rnd_zero hi.rounding) (by rw [e3]; norm_num)
    rw [e3] at hs
    have ht := hi.toInt_num _ _ hs (by norm_num)
    have e4 : truncRat 0 = 0 := by simpa using truncRat_int 0
    rw [e4] at ht
    simp only [foldFn2, fnType2, asDouble, modDouble, getAttrDouble, reduceCtorEq, or_self, if_false, ht]
  · have : ⌊((2 : ℚ) ^ 53 + 1) / 2⌋ = 2 ^ 52 := by
      rw [Int.floor_eq_iff]
      norm_num
    simp only [numFn2, this]
    norm_num

/-- `rem(x, -1)` is 0, but its folding is undefined (and traps on many machines) for the smallest `Integer`. -/
theorem C67_rem_false {F : Type} (fl : MathFloats F) :
    foldFn2 fl .rem (fnType2 .rem .int .int) (.int (-2 ^ 63)) (.int (-1)) = .undefined ∧
      numFn2 .rem (-2 ^ 63) (-1) = some 0 := by
  constructor
  · simp [foldFn2, onScalars, intLike, remInt]
  · have : truncRat ((-2 ^ 63 : ℚ) / -1) = 2 ^ 63 := by
      have := truncRat_int (2 ^ 63)
      push_cast at this
      rw [div_neg, div_one, neg_neg]
      exact this
    simp only [numFn2, this]
    norm_num

/-- `2 ^ (-1)` is 1/2, but is folded to 0: a power of `Integer` operands gets the type `Integer`. -/
theorem C67_power_false {F : Type} {fl : MathFloats F} {num : F → Option ℚ} {rnd : ℚ → ℚ} (hi : MathLaws fl num rnd) :
    foldFn2 fl .pow (fnType2 .pow .int .int) (.int 2) (.int (-1)) = .folded (.int 0) ∧ numFn2 .pow 2 (-1) = some (1 / 2) := by
  constructor
  · have h2 : num (fl.ofInt 2) = some 2 := by simpa using ofInt_exact hi.toIeee 2 (by norm_num)
    have h1 := ofInt_exact hi.toIeee (-1) (by norm_num)
    have e : (2 : ℚ) ^ (-1 : Int) = 1 / 2 := by norm_num
    have hd := hi.dyadic 1 1 (by norm_num) (by norm_num)
    have hp := hi.pow_exact _ _ _ _ h2 h1 (.inl (by norm_num)) (by rw [e]; norm_num at hd ⊢; exact hd)
      (.inr (by rw [e]; norm_num)) (by rw [e]; norm_num)
    rw [e] at hp
    have ht := hi.toInt_num _ _ hp (by norm_num)
    have e4 : truncRat (1 / 2) = 0 := by
      unfold truncRat
      rw [if_pos (by norm_num), Int.floor_eq_zero_iff]
      norm_num
    rw [e4] at ht
    simp [foldFn2, fnType2, asDouble, getAttrDouble, ht]
  · simp only [numFn2]
    rw [if_pos ⟨by rfl, .inl (by norm_num)⟩]
    have : (-1 : ℚ).num = -1 := by rfl
    rw [this]
    norm_num

/-- The full property is false. -/
theorem C67_full_false : ¬ C67_full := by
  intro h
  obtain ⟨v, hv, hr⟩ := (h Wide wideMath Wide.num wideRnd wide_math).2 .mod (.int (2 ^ 53 + 1)) (.int 2) (2 ^ 53 + 1) 2 1
    (by simp [Const.ty]) (by simp [Const.ty]) (by norm_num [Const64]) (by norm_num [Const64]) (by norm_num [constNum])
    (by simp [constNum]) (C67_mod_false wide_math).2 (by norm_num)
  rw [show (Const.int (2 ^ 53 + 1) : Const Wide).ty = .int from rfl, show (Const.int 2 : Const Wide).ty = .int from rfl,
    (C67_mod_false wide_math).1] at hv
  cases hv
  simp [Represents] at hr

/-- The functions of one operand are folded to their values. -/
theorem C67_unary {F : Type} {fl : MathFloats F} {num : F → Option ℚ} {rnd : ℚ → ℚ} (hi : MathLaws fl num rnd)
    (f : Fn1) (a : Const F) (p : ℚ) (ht : a.ty ≠ .bool) (h64 : Const64 a) (hp : constNum num a = some p)
    (hf : |numFn1 f p| < 2 ^ 63) :
    ∃ v, foldFn1 fl f (fnType1 f a.ty) a = .folded v ∧ Represents num rnd v (numFn1 f p) := by
  cases a with
  | bool b => exact absurd rfl ht
  | int n =>
    simp only [constNum, Option.some.injEq] at hp
    subst hp
    simp only [Const64] at h64
    have hn : |n| ≤ 2 ^ 63 := by rw [abs_le]; omega
    cases f with
    | abs =>
      simp only [foldFn1, intLike, fnType1, Const.ty, numFn1] at hf ⊢
      have h1 : |n| < 2 ^ 63 := by rw [abs_abs] at hf; exact_mod_cast hf
      have e : (if n < 0 then -n else n) = |n| := by
        split
        · next h => rw [abs_of_neg h]
        · next h => rw [abs_of_nonneg (by omega)]
      have h0 := abs_nonneg n
      rw [e, getAttrInt64, if_pos (by omega)]
      exact ⟨_, rfl, by simp [Represents]⟩
    | ceil =>
      have := attrInt_represents (fl := fl) hi.toIeee (res := .real) (by simp) hn
      simpa [foldFn1, intLike, fnType1, numFn1] using this
    | floor =>
      have := attrInt_represents (fl := fl) hi.toIeee (res := .real) (by simp) hn
      simpa [foldFn1, intLike, fnType1, numFn1] using this
    | integer =>
      have := attrInt_represents (fl := fl) hi.toIeee (res := .int) (by simp) hn
      simpa [foldFn1, intLike, fnType1, numFn1] using this
    | sign =>
      refine ⟨_, rfl, ?_⟩
      simp only [Represents, signOf, numFn1]
      rcases lt_trichotomy n 0 with h | h | h
      · have h' : (n : ℚ) < 0 := by exact_mod_cast h
        rw [if_neg (by simp; omega), if_neg (by simp; omega), if_neg h'.ne, if_neg (by linarith)]
        norm_num
      · subst h; simp
      · have h' : (0 : ℚ) < n := by exact_mod_cast h
        rw [if_neg (by simp; omega), if_pos (by simpa using h), if_neg h'.ne', if_pos h']
        norm_num
  | real x =>
    simp only [constNum] at hp
    cases f with
    | abs => exact ⟨_, rfl, .inl (hi.abs_num _ _ hp)⟩
    | ceil => exact ⟨_, rfl, .inl (hi.ceil_num _ _ hp)⟩
    | floor => exact ⟨_, rfl, .inl (hi.floor_num _ _ hp)⟩
    | integer => exact attrDouble_int hi.toIeee (hi.floor_num _ _ hp) hf
    | sign =>
      have h0 : num (fl.ofInt 0) = some 0 := by simpa using ofInt_exact hi.toIeee 0 (by norm_num)
      refine ⟨_, rfl, ?_⟩
      simp only [asDouble, Represents, signOf, numFn1, hi.eq_num _ _ _ _ hp h0, hi.lt_num _ _ _ _ h0 hp]
      rcases lt_trichotomy p 0 with h | h | h
      · rw [if_neg (by simp; exact h.ne), if_neg (by simp; linarith), if_neg h.ne, if_neg (by linarith)]
        norm_num
      · subst h; simp
      · rw [if_neg (by simp; exact h.ne'), if_pos (by simpa using h), if_neg h.ne', if_pos h]
        norm_num

/-- The functions of two operands are folded to their values, in the cases of `Exact2`: integers which are not too large, and for `rem`,
`max` and `min` also `Real` operands. Left out are `div` and `mod` of `Real` operands, where the rounding of the quotient can go over an
integer, and the powers that are not integers. -/
theorem C67_binary_partial {F : Type} {fl : MathFloats F} {num : F → Option ℚ} {rnd : ℚ → ℚ} (hi : MathLaws fl num rnd)
    (f : Fn2) (a b : Const F) (p q r : ℚ) (h64a : Const64 a) (h64b : Const64 b) (hp : constNum num a = some p)
    (hq : constNum num b = some q) (hr : numFn2 f p q = some r) (he : Exact2 f a b) :
    ∃ v, foldFn2 fl f (fnType2 f a.ty b.ty) a b = .folded v ∧ Represents num rnd v r := by
  have le_num := hi.le_num
  cases f with
  | div =>
    obtain ⟨m, n, rfl, rfl, hm, hn⟩ := he
    simp only [constNum, Option.some.injEq] at hp hq
    subst hp hq
    simp only [numFn2] at hr
    split at hr
    · simp at hr
    · next h0 =>
      simp only [Option.some.injEq] at hr
      have h0' : n ≠ 0 := by exact_mod_cast h0
      have hd := div_ints (fl := fl) hi.toIeee hm.le hn.le h0'
      obtain ⟨ht, hlt⟩ := trunc_rnd_div hi.rounding hm h0'
      have := hi.toInt_num _ _ hd hlt
      rw [ht] at this
      refine ⟨.int (Int.tdiv m n), ?_, ?_⟩
      · simp [foldFn2, fnType2, Const.ty, intLike, asDouble, getAttrDouble, this]
      · rw [← hr, truncRat_div m n h0']
        rfl
  | mod =>
    obtain ⟨m, n, rfl, rfl, hmn⟩ := he
    simp only [constNum, Option.some.injEq] at hp hq
    subst hp hq
    simp only [numFn2] at hr
    split at hr
    · simp at hr
    · next h0 =>
      simp only [Option.some.injEq] at hr
      have h0' : n ≠ 0 := by exact_mod_cast h0
      have hn1 := Int.one_le_abs h0'
      have hm0 := abs_nonneg m
      have hm : |m| < 2 ^ 53 := by omega
      have hn : |n| ≤ 2 ^ 53 := by omega
      have hx := ofInt_exact hi.toIeee m hm.le
      have hy := ofInt_exact hi.toIeee n hn
      have hd := div_ints (fl := fl) hi.toIeee hm.le hn h0'
      obtain ⟨hfl, -⟩ := floor_rnd_div hi.rounding hm h0'
      have hf := hi.floor_num _ _ hd
      rw [hfl] at hf
      set k := ⌊(m : ℚ) / n⌋ with hk
      have h1 : (k : ℚ) ≤ m / n := Int.floor_le _
      have h2 : (m : ℚ) / n < k + 1 := Int.lt_floor_add_one _
      -- the rest is between zero and `n`
      have hrest : |m - k * n| ≤ |n| := by
        rcases lt_or_gt_of_ne h0' with hneg | hpos
        · have hn' : (n : ℚ) < 0 := by exact_mod_cast hneg
          rw [le_div_iff_of_neg hn'] at h1
          rw [div_lt_iff_of_neg hn'] at h2
          have h1' : m ≤ k * n := by exact_mod_cast h1
          have h2' : (k + 1) * n < m := by exact_mod_cast h2
          rw [abs_of_neg hneg, abs_le]
          constructor <;> linarith
        · have hn' : (0 : ℚ) < n := by exact_mod_cast hpos
          rw [le_div_iff₀ hn'] at h1
          rw [div_lt_iff₀ hn'] at h2
          have h1' : k * n ≤ m := by exact_mod_cast h1
          have h2' : m < (k + 1) * n := by exact_mod_cast h2
          rw [abs_of_pos hpos, abs_le]
          constructor <;> linarith
      have hkn : |k * n| ≤ 2 ^ 53 := by
        have e : k * n = m - (m - k * n) := by ring
        rw [e]
        exact (abs_sub _ _).trans (by omega)
      have ekn : rnd ((k : ℚ) * n) = k * n := by
        have := hi.rounding.exact _ hkn
        push_cast at this
        exact this
      have hknq : |(k : ℚ) * n| ≤ 2 ^ 53 := by exact_mod_cast hkn
      have hmul := hi.mul_exact _ _ _ _ hf hy ekn
        (by
          by_cases hz : k * n = 0
          · left; exact_mod_cast hz
          · right
            have : (1 : ℚ) ≤ |(k : ℚ) * n| := by exact_mod_cast Int.one_le_abs hz
            refine le_trans ?_ this
            norm_num)
        (hknq.trans (by norm_num))
      have hsub : |m - k * n| ≤ 2 ^ 53 := hrest.trans hn
      have hsubq : |(m : ℚ) - k * n| ≤ 2 ^ 53 := by exact_mod_cast hsub
      have es : rnd ((m : ℚ) - k * n) = m - k * n := by
        have := hi.rounding.exact _ hsub
        push_cast at this
        exact this
      have hs := hi.sub_exact _ _ _ _ hx hmul es (hsubq.trans (by norm_num))
      have e5 : (m : ℚ) - k * n = ((m - k * n : Int) : ℚ) := by push_cast; ring
      rw [e5] at hs hr
      have hlt : |((m - k * n : Int) : ℚ)| < 2 ^ 63 := by
        rw [← e5]
        refine lt_of_le_of_lt hsubq ?_
        norm_num
      rw [← hr]
      have := attrDouble_int (fl := fl) hi.toIeee hs hlt
      simpa [foldFn2, fnType2, Const.ty, asDouble, modDouble] using this
  | rem =>
    simp only [numFn2] at hr
    split at hr
    · simp at hr
    next h0 =>
    simp only [Option.some.injEq] at hr
    rcases he with ⟨m, n, rfl, rfl, hmn⟩ | ⟨x, y, rfl, rfl⟩ | ⟨m, y, rfl, rfl, hm⟩ | ⟨x, n, rfl, rfl, hn⟩
    · simp only [constNum, Option.some.injEq] at hp hq
      subst hp hq
      have h0' : n ≠ 0 := by exact_mod_cast h0
      rw [truncRat_div m n h0'] at hr
      refine ⟨.int (Int.tmod m n), ?_, ?_⟩
      · simp only [foldFn2, onScalars, intLike, remInt, fnType2, Const.ty]
        rw [if_neg (by rintro (h | h) <;> [exact h0' h; exact hmn h])]
        rfl
      · rw [← hr]
        simp only [Represents]
        have := Int.mul_tdiv_add_tmod m n
        have e : Int.tmod m n = m - Int.tdiv m n * n := by rw [mul_comm]; omega
        rw [e]; push_cast; ring
    · exact ⟨_, rfl, .inl (by rw [← hr]; exact hi.fmod_num _ _ _ _ hp hq h0)⟩
    · simp only [constNum, Option.some.injEq] at hp
      subst hp
      exact ⟨_, rfl, .inl (by rw [← hr]; exact hi.fmod_num _ _ _ _ (ofInt_exact hi.toIeee m hm) hq h0)⟩
    · simp only [constNum, Option.some.injEq] at hq
      subst hq
      exact ⟨_, rfl, .inl (by rw [← hr]; exact hi.fmod_num _ _ _ _ hp (ofInt_exact hi.toIeee n hn) h0)⟩
  | max =>
    simp only [numFn2, Option.some.injEq] at hr
    subst hr
    rcases he with ⟨m, n, rfl, rfl⟩ | ⟨x, y, rfl, rfl⟩ | ⟨m, y, rfl, rfl, hm⟩ | ⟨x, n, rfl, rfl, hn⟩
    · simp only [constNum, Option.some.injEq] at hp hq
      subst hp hq
      refine ⟨_, rfl, ?_⟩
      simp only [Represents]
      split
      · next h => rw [max_eq_right (by exact_mod_cast h.le)]
      · next h => rw [max_eq_left (by exact_mod_cast not_lt.mp h)]
    · simp only [constNum] at hp hq
      refine ⟨_, rfl, .inl ?_⟩
      simp only [asDouble, hi.lt_num _ _ _ _ hp hq, decide_eq_true_eq]
      split
      · next h => rw [max_eq_right h.le, hq]
      · next h => rw [max_eq_left (not_lt.mp h), hp]
    · simp only [constNum, Option.some.injEq] at hp hq
      subst hp
      have hx := ofInt_exact hi.toIeee m hm
      refine ⟨_, rfl, .inl ?_⟩
      simp only [asDouble, le_num _ _ _ _ hq hx, decide_eq_true_eq]
      split
      · next h => rw [max_eq_left h, hx]
      · next h => rw [max_eq_right (not_le.mp h).le, hq]
    · simp only [constNum, Option.some.injEq] at hp hq
      subst hq
      have hy := ofInt_exact hi.toIeee n hn
      refine ⟨_, rfl, .inl ?_⟩
      simp only [asDouble, le_num _ _ _ _ hy hp, decide_eq_true_eq]
      split
      · next h => rw [max_eq_left h, hp]
      · next h => rw [max_eq_right (not_le.mp h).le, hy]
  | min =>
    simp only [numFn2, Option.some.injEq] at hr
    subst hr
    rcases he with ⟨m, n, rfl, rfl⟩ | ⟨x, y, rfl, rfl⟩ | ⟨m, y, rfl, rfl, hm⟩ | ⟨x, n, rfl, rfl, hn⟩
    · simp only [constNum, Option.some.injEq] at hp hq
      subst hp hq
      refine ⟨_, rfl, ?_⟩
      simp only [Represents]
      split
      · next h => rw [min_eq_right (by exact_mod_cast h.le)]
      · next h => rw [min_eq_left (by exact_mod_cast not_lt.mp h)]
    · simp only [constNum] at hp hq
      refine ⟨_, rfl, .inl ?_⟩
      simp only [asDouble, hi.lt_num _ _ _ _ hq hp, decide_eq_true_eq]
      split
      · next h => rw [min_eq_right h.le, hq]
      · next h => rw [min_eq_left (not_lt.mp h), hp]
    · simp only [constNum, Option.some.injEq] at hp hq
      subst hp
      have hx := ofInt_exact hi.toIeee m hm
      refine ⟨_, rfl, .inl ?_⟩
      simp only [asDouble, le_num _ _ _ _ hx hq, decide_eq_true_eq]
      split
      · next h => rw [min_eq_left h, hx]
      · next h => rw [min_eq_right (not_le.mp h).le, hq]
    · simp only [constNum, Option.some.injEq] at hp hq
      subst hq
      have hy := ofInt_exact hi.toIeee n hn
      refine ⟨_, rfl, .inl ?_⟩
      simp only [asDouble, le_num _ _ _ _ hp hy, decide_eq_true_eq]
      split
      · next h => rw [min_eq_left h, hp]
      · next h => rw [min_eq_right (not_le.mp h).le, hy]
  | pow =>
    obtain ⟨m, n, rfl, rfl, hm, hn, hmn⟩ := he
    simp only [constNum, Option.some.injEq] at hp hq
    subst hp hq
    have hx := ofInt_exact hi.toIeee m hm
    have hy := ofInt_exact hi.toIeee (n : Int) (by rw [abs_of_nonneg (by omega)]; exact_mod_cast hn)
    have e : (m : ℚ) ^ (n : Int) = ((m ^ n : Int) : ℚ) := by rw [zpow_natCast]; push_cast; rfl
    simp only [numFn2] at hr
    rw [if_pos ⟨Rat.den_intCast _, .inr (by exact_mod_cast Nat.zero_le n)⟩, Rat.num_intCast, e] at hr
    simp only [Option.some.injEq] at hr
    have hmnq : |((m ^ n : Int) : ℚ)| ≤ 2 ^ 53 := by exact_mod_cast hmn
    have hpw := hi.pow_exact _ _ _ _ hx hy (.inr (by omega)) (by rw [e]; exact hi.rounding.exact _ hmn)
      (by
        rw [e]
        by_cases hz : m ^ n = 0
        · left; exact_mod_cast hz
        · right
          have : (1 : ℚ) ≤ |((m ^ n : Int) : ℚ)| := by exact_mod_cast Int.one_le_abs hz
          refine le_trans ?_ this
          norm_num)
      (by rw [e]; exact hmnq.trans (by norm_num))
    rw [e] at hpw
    rw [← hr]
    have := attrDouble_int (fl := fl) hi.toIeee hpw (by refine lt_of_le_of_lt hmnq ?_; norm_num)
    simpa [foldFn2, fnType2, Const.ty, asDouble] using this

/-- `mod(-7, 3)` is 2, `rem(-7, 3)` is -1, `div(-7, 3)` is -2. -/
example : numFn2 .mod (-7) 3 = some 2 ∧ numFn2 .rem (-7) 3 = some (-1) ∧ numFn2 .div (-7) 3 = some (-2) ∧
    Exact2 .mod (F := Wide) (.int (-7)) (.int 3) ∧ Exact2 .rem (F := Wide) (.int (-7)) (.int 3) ∧
    Exact2 .div (F := Wide) (.int (-7)) (.int 3) := by
  have t : truncRat ((-7 : ℚ) / 3) = -2 := by
    have := truncRat_div (-7) 3 (by norm_num)
    push_cast at this
    rw [this]
  have f : ⌊(-7 : ℚ) / 3⌋ = -3 := by rw [Int.floor_eq_iff]; norm_num
  refine ⟨by norm_num [numFn2, f], by simp only [numFn2, t]; norm_num, by simp only [numFn2, t]; norm_num, ⟨-7, 3, rfl, rfl, by norm_num⟩,
    .inl ⟨-7, 3, rfl, rfl, by norm_num⟩, ⟨-7, 3, rfl, rfl, by norm_num, by norm_num⟩⟩

/-- `floor(-2.5)` is -3, `sign(-2.5)` is -1. -/
example : numFn1 .floor (-5 / 2) = -3 ∧ numFn1 .sign (-5 / 2) = -1 ∧ Wide.num (.fin (-5 / 2)) = some (-5 / 2) := by
  have f : ⌊(-5 : ℚ) / 2⌋ = -3 := by rw [Int.floor_eq_iff]; norm_num
  refine ⟨by simp only [numFn1, f]; norm_num, by norm_num [numFn1], rfl⟩

end Marco.Props
