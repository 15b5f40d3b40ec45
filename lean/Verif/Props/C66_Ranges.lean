import Verif.Lemmas.Ranges

/-!
# C66: the size and the elements of a range

The size of a constant range is computed while the model is compiled (`RangeSizeOp::fold`), and otherwise by the generated code
(`RangeSizeOpLowering`). Both must be the number of the elements of the range. The sum and the difference of a constant range and a
number are folded to a range, whose elements must be the sums and differences.
-/

namespace Marco.Props
open Marco.Fold Marco.Spec

/-- The full property: both the folding and the generated code compute the number of the elements, for every range whose step is
not zero. -/
def C66_full : Prop :=
  ∀ (F : Type) (fl : Floats F) (num : F → Option ℚ) (rnd : ℚ → ℚ), ExactOps fl num rnd →
    ∀ (r : ConstRange F) (b e s : ℚ), RangeNums num r b e s → Range64 r → s ≠ 0 →
      ∃ n : Int, RangeSizeIs b e s n ∧ rangeSize fl r = some n ∧ runSize fl r = some (.i64 n)

/-- The range `1:2:0` is empty. Both computations give one element, since `(0 - 1) / 2` is rounded to zero. -/
theorem C66_empty_false {F : Type} (fl : Floats F) :
    rangeSize fl (.int 1 0 2) = some 1 ∧ runSize fl (.int 1 0 2) = some (.i64 1) ∧ RangeSizeIs 1 0 2 0 := by
  refine ⟨by simp [rangeSize, int64], ?_, size_empty (by norm_num)⟩
  rfl

/-- The range `1:-5` is empty. Both computations give -5 elements. -/
theorem C66_negative_false {F : Type} (fl : Floats F) :
    rangeSize fl (.int 1 (-5) 1) = some (-5) ∧ runSize fl (.int 1 (-5) 1) = some (.i64 (-5)) ∧ RangeSizeIs 1 (-5) 1 0 := by
  refine ⟨by simp [rangeSize, int64], ?_, size_empty (by norm_num)⟩
  rfl

/-- The folding and the generated code differ on the range `1.0:2.0:0.0`: the one cuts the fraction of `1 + -0.5` off, the other that
of -0.5. -/
theorem C66_agree_false {F : Type} {fl : Floats F} {num : F → Option ℚ} {rnd : ℚ → ℚ} (hi : ExactOps fl num rnd) :
    rangeSize fl (.real (fl.ofInt 1) (fl.ofInt 0) (fl.ofInt 2)) = some 0 ∧
      runSize fl (.real (fl.ofInt 1) (fl.ofInt 0) (fl.ofInt 2)) = some (.i64 1) := by
  have h0 : num (fl.ofInt 0) = some 0 := by simpa using ofInt_exact hi.toIeee 0 (by norm_num)
  have h1 : num (fl.ofInt 1) = some 1 := by simpa using ofInt_exact hi.toIeee 1 (by norm_num)
  have h2 : num (fl.ofInt 2) = some 2 := by simpa using ofInt_exact hi.toIeee 2 (by norm_num)
  have hs : num (fl.sub (fl.ofInt 0) (fl.ofInt 1)) = some (-1) := by
    have e : rnd ((0 : ℚ) - 1) = 0 - 1 := by simpa using hi.rounding.exact (-1) (by norm_num)
    simpa using hi.sub_exact _ _ _ _ h0 h1 e (by norm_num)
  have hd : num (fl.div (fl.sub (fl.ofInt 0) (fl.ofInt 1)) (fl.ofInt 2)) = some (-1 / 2) := by
    have := hi.div_num _ _ _ _ hs h2 (by norm_num) (.inr (by norm_num)) (by norm_num)
    have e := hi.dyadic (-1) 1 (by norm_num) (by norm_num)
    rw [this]
    norm_num at e ⊢
    exact e
  have ha : num (fl.add (fl.ofInt 1) (fl.div (fl.sub (fl.ofInt 0) (fl.ofInt 1)) (fl.ofInt 2))) = some (1 / 2) := by
    have e := hi.dyadic 1 1 (by norm_num) (by norm_num)
    have := hi.add_exact _ _ _ _ h1 hd (by norm_num at e ⊢; exact e) (by norm_num)
    rw [this]
    norm_num
  have t1 := hi.toInt_num _ _ ha (by norm_num)
  have t2 := hi.toInt_num _ _ hd (by norm_num)
  constructor
  · simp only [rangeSize, t1]
    norm_num [truncRat]
  · have e2 : truncRat (-1 / 2) = 0 := by
      unfold truncRat
      rw [if_neg (by norm_num), Int.ceil_eq_zero_iff]
      norm_num
    rw [e2] at t2
    simp [runSize, lowerSize, ConstRange.ty, convertType, lower2, arithTm, mostGeneric, castTm, evalTm, constVal, rangeEnd,
      rangeBegin, rangeStep, fop64, t2, iop64, wrap64]

/-- The full property is false. -/
theorem C66_full_false : ¬ C66_full := by
  intro h
  obtain ⟨n, h1, h2, -⟩ := h Wide wide Wide.num wideRnd wide_exact (.int 1 0 2) 1 0 2 (by simp [RangeNums])
    (by simp [Range64]) (by norm_num)
  obtain ⟨h3, -, h4⟩ := C66_empty_false wide
  rw [h3] at h2
  have := size_unique h1 h4
  simp_all

/-- When the size of a range of integers is right: if it is not empty, and if its end is at least one step and less than two steps
before its begin. In all the other cases both the folding and the generated code give a wrong number. The numbers are limited such
that nothing overflows. -/
theorem C66_integers_partial {F : Type} (fl : Floats F) (l u s : Int) (hl : |l| < 2 ^ 62) (hu : |u| < 2 ^ 62) (hs : |s| < 2 ^ 63)
    (h0 : s ≠ 0) :
    ∃ n : Int, rangeSize fl (.int l u s) = some n ∧ runSize fl (.int l u s) = some (.i64 n) ∧
      (RangeSizeIs l u s n ↔ 0 ≤ (u - l) * s ∨ (|s| ≤ |u - l| ∧ |u - l| < 2 * |s|)) := by
  rw [abs_lt] at hl hu hs
  have hd : -2 ^ 63 < u - l ∧ u - l < 2 ^ 63 - 1 := by omega
  generalize hdef : u - l = d at hd
  have hq : |Int.tdiv d s| ≤ |d| := by
    rw [Int.abs_eq_natAbs, Int.natAbs_tdiv, Int.abs_eq_natAbs]
    exact_mod_cast Nat.div_le_self _ _
  have hq' : -2 ^ 63 < Int.tdiv d s ∧ Int.tdiv d s < 2 ^ 63 - 1 := by
    rw [abs_le] at hq
    rcases le_or_gt 0 d with h | h
    · rw [abs_of_nonneg h] at hq; omega
    · rw [abs_of_neg h] at hq
      constructor
      · omega
      · have := hq.2; omega
  refine ⟨1 + Int.tdiv d s, ?_, ?_, ?_⟩
  · simp only [rangeSize, hdef, int64]
    rw [if_pos (by omega)]
    simp only [if_neg h0, if_pos (show -2 ^ 63 ≤ Int.tdiv d s ∧ Int.tdiv d s < 2 ^ 63 by omega), Option.bind_some]
    rw [if_pos (by omega)]
  · have w1 : wrap64 d = d := wrap_eq (by omega)
    have w2 : wrap64 (Int.tdiv d s + 1) = 1 + Int.tdiv d s := by rw [wrap_eq (by omega)]; omega
    simp only [runSize, lowerSize, ConstRange.ty, convertType, lower2, arithTm, mostGeneric, castTm, evalTm, constVal, rangeEnd,
      rangeBegin, rangeStep, iop64, hdef, w1, Option.map_some, Option.bind_some, reduceCtorEq, if_false]
    rw [if_neg (by omega)]
    simp only [Option.map_some, Option.bind_some, w2]
  · have hsq : (s : ℚ) ≠ 0 := by exact_mod_cast h0
    have hdq : (u : ℚ) - l = d := by rw [← hdef]; push_cast; ring
    have ht := truncRat_div d s h0
    have sgn : 0 ≤ (d : ℚ) / s ↔ 0 ≤ d * s := by
      rw [div_nonneg_iff, mul_nonneg_iff]
      norm_cast
    rcases le_or_gt 0 (d * s) with h | h
    · have hf := size_floor (b := l) (e := u) hsq (by rw [hdq]; exact sgn.mpr h)
      rw [hdq] at hf
      unfold truncRat at ht
      rw [if_pos (sgn.mpr h)] at ht
      rw [ht] at hf
      exact ⟨fun _ => .inl h, fun _ => hf⟩
    · have hneg : (d : ℚ) / s < 0 := by
        by_contra hc
        have := sgn.mp (not_lt.mp hc)
        omega
      have he := size_empty (b := l) (e := u) (s := s) (by rw [hdq]; exact hneg)
      have e1 : RangeSizeIs l u s (1 + Int.tdiv d s) ↔ Int.tdiv d s = -1 := by
        constructor
        · intro hr
          have := size_unique hr he
          omega
        · intro hr
          rw [hr]
          exact he
      rw [e1]
      have key : ∀ a t : Int, 0 < t → (a / t = 1 ↔ t ≤ a ∧ a < 2 * t) := by
        intro a t ht
        have h1 := Int.le_ediv_iff_mul_le (a := 1) (b := a) ht
        have h2 := Int.ediv_lt_iff_lt_mul (a := a) (b := 2) ht
        rw [one_mul] at h1
        rw [← h1, ← h2]
        omega
      have hor : (0 ≤ d * s ∨ (|s| ≤ |d| ∧ |d| < 2 * |s|)) ↔ (|s| ≤ |d| ∧ |d| < 2 * |s|) := by
        constructor
        · rintro (h1 | h1)
          · omega
          · exact h1
        · exact .inr
      rw [hor]
      rcases lt_or_gt_of_ne h0 with hs0 | hs0
      · have hd0 : 0 < d := by nlinarith
        have e2 : Int.tdiv d s = -(d / -s) := by
          have := Int.tdiv_eq_ediv_of_nonneg (a := d) (b := -s) hd0.le
          rw [Int.tdiv_neg] at this
          omega
        rw [abs_of_neg hs0, abs_of_pos hd0, e2, ← key d (-s) (by omega)]
        omega
      · have hd0 : d < 0 := by nlinarith
        have e2 : Int.tdiv d s = -(-d / s) := by
          have := Int.tdiv_eq_ediv_of_nonneg (a := -d) (b := s) (by omega)
          rw [Int.neg_tdiv] at this
          omega
        rw [abs_of_pos hs0, abs_of_neg hd0, e2, ← key (-d) s hs0]
        omega

/-- The size of a range of `Real` numbers is right if the range is not empty, and the difference, the quotient and the sum are `double`
of moderate size. -/
theorem C66_reals_partial {F : Type} {fl : Floats F} {num : F → Option ℚ} {rnd : ℚ → ℚ} (hi : ExactOps fl num rnd)
    (l u d : F) (b e s : ℚ) (hr : RangeNums num (.real l u d) b e s) (h0 : s ≠ 0) (hne : 0 ≤ (e - b) / s)
    (hsub : rnd (e - b) = e - b) (hdiv : rnd ((e - b) / s) = (e - b) / s) (hadd : rnd (1 + (e - b) / s) = 1 + (e - b) / s)
    (hbig : |e - b| ≤ 2 ^ 62) (hq : e = b ∨ (1 : ℚ) / 2 ^ 64 ≤ (e - b) / s) (hq' : (e - b) / s ≤ 2 ^ 62) :
    ∃ n : Int, RangeSizeIs b e s n ∧ rangeSize fl (.real l u d) = some n ∧ runSize fl (.real l u d) = some (.i64 n) := by
  obtain ⟨hl, hu, hd⟩ := hr
  have h1 : num (fl.ofInt 1) = some 1 := by simpa using ofInt_exact hi.toIeee 1 (by norm_num)
  have hs := hi.sub_exact _ _ _ _ hu hl hsub (hbig.trans (by norm_num))
  have hdv := hi.div_num _ _ _ _ hs hd h0
    (by
      rcases hq with h | h
      · left; rw [h, sub_self]
      · right; rw [abs_of_nonneg hne]; exact h)
    (by rw [abs_of_nonneg hne]; exact hq'.trans (by norm_num))
  rw [hdiv] at hdv
  have ha := hi.add_exact _ _ _ _ h1 hdv hadd (by rw [abs_of_nonneg (by linarith)]; norm_num at hq' ⊢; linarith)
  have t1 := hi.toInt_num _ _ ha (by rw [abs_of_nonneg (by linarith)]; norm_num at hq' ⊢; linarith)
  have t2 := hi.toInt_num _ _ hdv (by rw [abs_of_nonneg (by linarith)]; norm_num at hq' ⊢; linarith)
  unfold truncRat at t1 t2
  rw [if_pos (by linarith)] at t1
  rw [if_pos hne] at t2
  have e1 : ⌊1 + (e - b) / s⌋ = 1 + ⌊(e - b) / s⌋ := by
    rw [add_comm, Int.floor_add_one, add_comm]
  rw [e1] at t1
  have hf0 := Int.floor_nonneg.mpr hne
  have hf1 : ⌊(e - b) / s⌋ ≤ 2 ^ 62 := by
    rw [← @Int.cast_le ℚ]
    push_cast
    exact (Int.floor_le _).trans hq'
  refine ⟨1 + ⌊(e - b) / s⌋, size_floor h0 hne, ?_, ?_⟩
  · simp only [rangeSize, t1]
  · have w : wrap64 (⌊(e - b) / s⌋ + 1) = 1 + ⌊(e - b) / s⌋ := by rw [wrap_eq (by omega)]; omega
    simp [runSize, lowerSize, ConstRange.ty, convertType, lower2, arithTm, mostGeneric, castTm, evalTm, constVal, rangeEnd,
      rangeBegin, rangeStep, fop64, t2, iop64, w]

/-- The sum and the difference of a range of integers and an integer: they are folded unless the bounds overflow, and the elements of
the result are those of the range, shifted. -/
theorem C66_shift_partial {F : Type} (fl : Floats F) (l u s : Int) (c : Const F) (n : Int) (hc : intLike c = some n) :
    (∀ r, addRange fl (.range (.int l u s)) (.scalar c) = .folded r → ∃ l' u' s', r = .int l' u' s' ∧
      ∀ x : ℚ, RangeElement l' u' s' x ↔ ∃ y, RangeElement l u s y ∧ x = y + n) ∧
    (∀ r, subRange fl (.range (.int l u s)) (.scalar c) = .folded r → ∃ l' u' s', r = .int l' u' s' ∧
      ∀ x : ℚ, RangeElement l' u' s' x ↔ ∃ y, RangeElement l u s y ∧ x = y - n) ∧
    (|l| < 2 ^ 62 → |u| < 2 ^ 62 → |n| < 2 ^ 62 →
      (∃ r, addRange fl (.range (.int l u s)) (.scalar c) = .folded r) ∧
      (∃ r, subRange fl (.range (.int l u s)) (.scalar c) = .folded r)) := by
  have shift : ∀ (k : Int) (x : ℚ), RangeElement ((l + k : Int) : ℚ) ((u + k : Int) : ℚ) s x ↔
      ∃ y, RangeElement l u s y ∧ x = y + k := by
    intro k x
    push_cast
    rw [element_shift]
    constructor
    · intro h; exact ⟨_, h, by ring⟩
    · rintro ⟨y, h, rfl⟩; simpa using h
  refine ⟨?_, ?_, ?_⟩
  · intro r hr
    simp only [addRange, hc, intRange, int64] at hr
    split at hr
    · next h1 h2 =>
      split at h1 <;> simp at h1
      split at h2 <;> simp at h2
      subst h1 h2
      simp only [RangeRes.folded.injEq] at hr
      exact ⟨_, _, _, hr.symm, shift n⟩
    · simp at hr
  · intro r hr
    simp only [subRange, hc, intRange, int64] at hr
    split at hr
    · next h1 h2 =>
      split at h1 <;> simp at h1
      split at h2 <;> simp at h2
      subst h1 h2
      simp only [RangeRes.folded.injEq] at hr
      refine ⟨_, _, _, hr.symm, fun x => ?_⟩
      have := shift (-n) x
      simpa [sub_eq_add_neg] using this
    · simp at hr
  · intro h1 h2 h3
    rw [abs_lt] at h1 h2 h3
    constructor
    · simp only [addRange, hc, intRange, int64]
      rw [if_pos (by omega), if_pos (by omega)]
      exact ⟨_, rfl⟩
    · simp only [subRange, hc, intRange, int64]
      rw [if_pos (by omega), if_pos (by omega)]
      exact ⟨_, rfl⟩

/-- A sum of a range and a constant is always folded after the ordering of its operands; a sum with the range on the right is not
folded before. -/
theorem C66_ordered {F : Type} (fl : Floats F) (c : Const F) (r : ConstRange F) :
    addRange fl (.scalar c) (.range r) = .kept ∧
      addRange fl (orderRange (.scalar c, .range r)).1 (orderRange (.scalar c, .range r)).2 ≠ .kept := by
  refine ⟨by cases r <;> rfl, ?_⟩
  cases r with
  | int l u s =>
    simp only [orderRange, addRange]
    split
    · unfold intRange; split <;> simp
    · simp
  | real l u s => simp [orderRange, addRange]

/-- A range of constants has their numbers as first number, last number and step, and these are found again. Integers must be
such that a `double` represents them. -/
theorem C66_constants {F : Type} {fl : Floats F} {num : F → Option ℚ} {rnd : ℚ → ℚ} (hi : Ieee fl num rnd)
    (lower upper step : Const F) (b e s : ℚ) (hb : constNum num lower = some b) (he : constNum num upper = some e)
    (hs : constNum num step = some s) (hsmall : ∀ n, (.int n = lower ∨ .int n = upper ∨ .int n = step) → |n| ≤ 2 ^ 53) :
    RangeNums num (foldRange fl lower upper step) b e s ∧
      constNum num (rangeBegin (foldRange fl lower upper step)) = some b ∧
      constNum num (rangeEnd (foldRange fl lower upper step)) = some e ∧
      constNum num (rangeStep (foldRange fl lower upper step)) = some s := by
  have hd : ∀ (c : Const F) (q : ℚ), constNum num c = some q → (∀ n, .int n = c → |n| ≤ 2 ^ 53) →
      num (asDouble fl c) = some q := by
    intro c q hq hn
    cases c with
    | bool x =>
      rw [asDouble, ofInt_exact hi _ (by cases x <;> norm_num), ← hq]
      cases x <;> simp [constNum]
    | int n => rw [asDouble, ofInt_exact hi n (hn n rfl), ← hq, constNum]
    | real x => exact hq
  have hl : ∀ (c : Const F) (q : ℚ) (n : Int), constNum num c = some q → intLike c = some n → q = n := by
    intro c q n hq hn
    cases c <;> simp [constNum, intLike] at hq hn
    · subst hn; rw [← hq]; push_cast; rfl
    · subst hn; exact hq.symm
  have db := hd lower b hb fun n h => hsmall n (.inl h)
  have de := hd upper e he fun n h => hsmall n (.inr (.inl h))
  have ds := hd step s hs fun n h => hsmall n (.inr (.inr h))
  unfold foldRange
  split
  · next l u d h1 h2 h3 =>
    have e1 := hl _ _ _ hb h1
    have e2 := hl _ _ _ he h2
    have e3 := hl _ _ _ hs h3
    simp [RangeNums, rangeBegin, rangeEnd, rangeStep, constNum, e1, e2, e3]
  · simp [RangeNums, rangeBegin, rangeEnd, rangeStep, constNum, db, de, ds]

/-- A step of zero is a division by zero, both in the compiler and in the generated code. -/
theorem C66_zero {F : Type} (fl : Floats F) (l u : Int) :
    rangeSize fl (.int l u 0) = none ∧ runSize fl (.int l u 0) = none := by
  constructor
  · simp only [rangeSize]
    split <;> simp
  · simp [runSize, lowerSize, ConstRange.ty, convertType, lower2, arithTm, mostGeneric, castTm, evalTm, constVal, rangeEnd,
      rangeBegin, rangeStep, iop64]

/-- `true:2.5`, with the step 1. -/
example : constNum Wide.num (.bool true) = some 1 ∧ constNum Wide.num (.real (.fin (5 / 2))) = some (5 / 2) ∧
    constNum Wide.num (.int 1) = some 1 := by simp [constNum, Wide.num]

/-- `1:3:10` has four elements. -/
example : ∃ n : Int, rangeSize wide (.int 1 10 3) = some n ∧ RangeSizeIs 1 10 3 n ∧ n = 4 := by
  refine ⟨4, by simp [rangeSize, int64], ?_, rfl⟩
  have := size_floor (b := 1) (e := 10) (s := 3) (by norm_num) (by norm_num)
  norm_num at this
  exact this

/-- `0.0:0.5:2.0` has five elements. -/
example : rangeSize wide (.real (.fin 0) (.fin 2) (.fin (1 / 2))) = some 5 := by
  have h := C66_reals_partial wide_exact (.fin 0) (.fin 2) (.fin (1 / 2)) 0 2 (1 / 2) (by simp [RangeNums, Wide.num])
    (by norm_num) (by norm_num) (wideRnd_small (by norm_num)) (wideRnd_small (by norm_num)) (wideRnd_small (by norm_num))
    (by norm_num) (.inr (by norm_num)) (by norm_num)
  obtain ⟨n, h1, h2, -⟩ := h
  have := size_floor (b := 0) (e := 2) (s := 1 / 2) (by norm_num) (by norm_num)
  rw [h2, size_unique h1 this]
  norm_num

/-- `(1:2:7) + 10` is `11:2:17`. -/
example : addRange wide (.range (.int 1 7 2)) (.scalar (.int 10)) = .folded (.int 11 17 2) := by
  simp [addRange, intLike, intRange, int64]

end Marco.Props
