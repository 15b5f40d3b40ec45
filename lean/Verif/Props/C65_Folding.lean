import Verif.Lemmas.WideFloats

/-!
# C65: the folding of an operation gives the value that the generated code computes

An operation on constants is replaced with a constant while the model is compiled (`fold` in `Ops.cpp`), or is converted to
operations of the `arith` dialect and executed by the simulation. The two must agree: whether the compiler manages to fold an
operation must not change the results.
-/

namespace Marco.Props
open Marco.Fold Marco.Spec

/-- The full property: for every arithmetic on `double` with the laws of IEEE 754, an operation whose operands have the values
`x` and `y`, and whose known operands are those values, is never folded with undefined behaviour, and folded only to the value
that the generated code computes. -/
def C65_full : Prop :=
  ∀ (F : Type) (fl : Floats F) (num : F → Option ℚ) (rnd : ℚ → ℚ), Ieee fl num rnd →
    ∀ (op : BinOp) (res : Ty) (x y : Const F) (a b : Option (Const F)), Const64 x → Const64 y →
      (a = none ∨ a = some x) → (b = none ∨ b = some y) →
      (∃ w, evalTm fl (constVal x) (constVal y) (lower2 op (convertType x.ty) (convertType y.ty) (convertType res)) = some w ∧
        match fold2 fl op res a b with
        | .undefined => False
        | .kept => True
        | .folded v => SameValue fl v w)

/-- `true > false` is folded to `true`. The generated code compares bits as signed integers, where `true` is -1, and computes
`false`. -/
theorem C65_order_false {F : Type} (fl : Floats F) :
    fold2 fl .gt .bool (some (.bool true)) (some (.bool false)) = .folded (.bool true) ∧
      evalTm fl (.i1 true) (.i1 false) (lower2 .gt .i1 .i1 .i1) = some (.i1 false) := by
  constructor <;> rfl

/-- `true + true` is folded to `true`; the generated code computes `false`. -/
theorem C65_sum_false {F : Type} (fl : Floats F) :
    fold2 fl .add .bool (some (.bool true)) (some (.bool true)) = .folded (.bool true) ∧
      evalTm fl (.i1 true) (.i1 true) (lower2 .add .i1 .i1 .i1) = some (.i1 false) := by
  constructor <;> rfl

/-- The cast of 2 to a `Boolean` is folded to `true`; the generated code keeps the last bit, `false`. -/
theorem C65_cast_false {F : Type} (fl : Floats F) :
    fold1 fl .cast .bool (.int 2) = .folded (.bool true) ∧
      evalTm fl (.i64 2) (.i64 2) (lower1 .cast .i64 .i1) = some (.i1 false) := by
  constructor <;> rfl

/-- The cast of 1.0 to a `Boolean` is folded to `true`; in the generated code it is undefined, since 1 is not a signed integer of
one bit. -/
theorem C65_cast_real_false {F : Type} {fl : Floats F} {num : F → Option ℚ} {rnd : ℚ → ℚ} (hi : Ieee fl num rnd) :
    fold1 fl .cast .bool (.real (fl.ofInt 1)) = .folded (.bool true) ∧
      evalTm fl (.f64 (fl.ofInt 1)) (.f64 (fl.ofInt 1)) (lower1 .cast .f64 .i1) = none := by
  have h0 := ofInt_exact hi 0 (by norm_num)
  have h1 := ofInt_exact hi 1 (by norm_num)
  have ht := hi.toInt_num _ _ h1 (by norm_num)
  constructor
  · simp [fold1, intLike, asDouble, getAttrDouble, hi.eq_num _ _ _ _ h1 h0]
  · simp [lower1, castTm, evalTm, ht, truncRat]

/-- The sum of the largest `Integer` and 1 overflows in the C++ code, where this is undefined; the generated code wraps. -/
theorem C65_overflow_false {F : Type} (fl : Floats F) :
    fold2 fl .add .int (some (.int (2 ^ 63 - 1))) (some (.int 1)) = .undefined ∧
      evalTm fl (.i64 (2 ^ 63 - 1)) (.i64 1) (lower2 .add .i64 .i64 .i64) = some (.i64 (-2 ^ 63)) := by
  constructor
  · simp [fold2, foldConstants, onScalars, intLike, getAttrInt64]
  · simp [lower2, arithTm, mostGeneric, castTm, evalTm, iop64]
    decide

/-- `0.0 / 0.0 <> 1.0` is folded to `true`; the ordered comparison of the generated code computes `false`. -/
theorem C65_nan_false {F : Type} {fl : Floats F} {num : F → Option ℚ} {rnd : ℚ → ℚ} (hi : Ieee fl num rnd) :
    ∃ x y : F, fold2 fl .ne .bool (some (.real x)) (some (.real y)) = .folded (.bool true) ∧
      evalTm fl (.f64 x) (.f64 y) (lower2 .ne .f64 .f64 .i1) = some (.i1 false) := by
  have hn := hi.zero_div_zero
  have h1 := ofInt_exact hi 1 (by norm_num)
  refine ⟨fl.div (fl.ofInt 0) (fl.ofInt 0), fl.ofInt 1, ?_, ?_⟩
  · simp [fold2, foldConstants, onScalars, intLike, asDouble, getAttrBool, getAttrInt, hi.eq_none _ _ _ (hi.nan_num _ hn) h1]
  · simp [lower2, cmpTm, mostGeneric, castTm, evalTm, fcmp, hi.lt_nan _ _ hn]

/-- `0.0 * x` is folded to zero, also when `x` is not a constant. For an infinite `x` the generated code computes `NaN`. -/
theorem C65_absorb_false {F : Type} {fl : Floats F} {num : F → Option ℚ} {rnd : ℚ → ℚ} (hi : Ieee fl num rnd) :
    ∃ x y z : F, fold2 fl .mul .real (some (.real x)) none = .folded (.real z) ∧ num z = some 0 ∧
      ∃ w, evalTm fl (.f64 x) (.f64 y) (lower2 .mul .f64 .f64 .f64) = some (.f64 w) ∧ nan fl w := by
  have h0 := ofInt_exact hi 0 (by norm_num)
  refine ⟨fl.ofInt 0, fl.div (fl.ofInt 1) (fl.ofInt 0), fl.ofInt 0, ?_, by simpa using h0, _, ?_, hi.zero_mul_inf⟩
  · simp [fold2, isZero, asDouble, hi.eq_num _ _ _ _ h0 h0, getAttrInt]
  · simp [lower2, arithTm, mostGeneric, castTm, evalTm, fop64]

/-- A quotient of integers with an `Integer` result is computed with `double` when it is folded: `(2^53 + 1) / 1` is an even
number then. -/
theorem C65_quotient_false {F : Type} {fl : Floats F} {num : F → Option ℚ} {rnd : ℚ → ℚ} (hi : Ieee fl num rnd) :
    ∃ k : Int, fold2 fl .div .int (some (.int (2 ^ 53 + 1))) (some (.int 1)) = .folded (.int (2 * k)) ∧
      evalTm fl (.i64 (2 ^ 53 + 1)) (.i64 1) (lower2 .div .i64 .i64 .i64) = some (.i64 (2 ^ 53 + 1)) := by
  obtain ⟨k, hk⟩ := hi.rounding.even (2 ^ 53 + 1) (by norm_num) (by norm_num)
  have hlow : (2 ^ 53 : ℚ) ≤ 2 * k := by
    have := hi.rounding.mono ((2 ^ 53 : Int) : ℚ) ((2 ^ 53 + 1 : Int) : ℚ) (by push_cast; norm_num)
    rw [hi.rounding.exact (2 ^ 53) (by norm_num), hk] at this
    push_cast at this
    linarith
  have hup : (2 * k : ℚ) ≤ 2 ^ 54 := by
    have := hi.rounding.error ((2 ^ 53 + 1 : Int) : ℚ)
    rw [hk, abs_le] at this
    have h2 := this.2
    rw [abs_of_nonneg (by push_cast; norm_num)] at h2
    push_cast at h2
    linarith
  -- the quotient by one of a number between `2^53` and `2^54` is an even integer again
  obtain ⟨j, hj⟩ := hi.rounding.even (2 * k) (by exact_mod_cast hlow) (by exact_mod_cast hup)
  have hx : num (fl.ofInt (2 ^ 53 + 1)) = some (2 * k : ℚ) := by
    rw [hi.ofInt_num _ (by norm_num), hk]
  have h1 : num (fl.ofInt 1) = some 1 := by simpa using ofInt_exact hi 1 (by norm_num)
  have hd := hi.div_num _ _ _ _ hx h1 (by norm_num)
    (.inr (by rw [div_one, abs_of_nonneg (by linarith)]; refine le_trans ?_ hlow; norm_num))
    (by rw [div_one, abs_of_nonneg (by linarith)]; refine hup.trans ?_; norm_num)
  have hj' : rnd (2 * k / 1) = 2 * j := by rw [div_one]; simpa using hj
  rw [hj'] at hd
  have hj0 : (0 : ℚ) ≤ 2 * j := by
    rw [← hj', div_one]
    have := hi.rounding.mono 0 (2 * k) (by linarith)
    rwa [rnd_zero hi.rounding] at this
  have hjup : (2 * j : ℚ) < 2 ^ 63 := by
    have := hi.rounding.error (2 * k : ℚ)
    rw [div_one] at hj'
    rw [hj', abs_le, abs_of_nonneg (by linarith)] at this
    have h2 := this.2
    have h3 : (2 * k : ℚ) / 2 ^ 53 ≤ 2 := by rw [div_le_iff₀ (by norm_num)]; linarith
    have : (2 : ℚ) ^ 54 + 2 < 2 ^ 63 := by norm_num
    linarith
  have ht := hi.toInt_num _ _ hd (by rw [abs_of_nonneg hj0]; exact hjup)
  have htr : truncRat (2 * j) = 2 * j := by
    unfold truncRat
    rw [if_pos hj0]
    have : ((2 * j : Int) : ℚ) = 2 * j := by push_cast; ring
    rw [← this, Int.floor_intCast]
  rw [htr] at ht
  refine ⟨j, ?_, ?_⟩
  · simp only [fold2, reduceCtorEq, false_and, if_false, foldConstants, onScalars, intLike, getAttrDouble, ht]
  · simp [lower2, arithTm, mostGeneric, castTm, evalTm, iop64]

/-- The full property is false. -/
theorem C65_full_false : ¬ C65_full := by
  intro h
  obtain ⟨w, hw, hf⟩ := h Wide wide Wide.num wideRnd wide_ieee .gt .bool (.bool true) (.bool false) (some (.bool true))
    (some (.bool false)) trivial trivial (.inr rfl) (.inr rfl)
  obtain ⟨hfold, hrun⟩ := C65_order_false wide
  have : w = .i1 false := by
    have := hw.symm.trans hrun
    simpa using this
  subst this
  rw [hfold] at hf
  exact absurd hf (by simp [SameValue])

/-- What holds of the binary operations: in all the cases of `Agree2`, which leave out those of the theorems above, an operation is
folded only to the value that the generated code computes, whatever the values of the operands that are not known. -/
theorem C65_binary_partial {F : Type} {fl : Floats F} {num : F → Option ℚ} {rnd : ℚ → ℚ} (hi : Ieee fl num rnd)
    (op : BinOp) (res : Ty) (x y v : Const F) (a b : Option (Const F)) (hx : Const64 x) (hy : Const64 y)
    (ha : a = none ∨ a = some x) (hb : b = none ∨ b = some y) (hag : Agree2 fl num op res x y)
    (hf : fold2 fl op res a b = .folded v) :
    ∃ w, evalTm fl (constVal x) (constVal y) (lower2 op (convertType x.ty) (convertType y.ty) (convertType res)) = some w ∧
      SameValue fl v w := by
  unfold fold2 at hf
  split at hf
  · next hz =>
    obtain ⟨rfl, hz⟩ := hz
    obtain ⟨hbool, hr, hzx, hzy⟩ := hag
    rcases hz with hz | hz
    · rcases ha with rfl | rfl
      · simp [isZero] at hz
      · have hx0 := (isZero_iff hi hx).1 hz
        obtain ⟨q, hq⟩ := num_asDouble hi hy (hzx hx0)
        exact mul_zero_result hi hbool hr (hi.zero_mul _ _ _ (asDouble_zero hi hx0) hq) (.inl hx0) hf
    · rcases hb with rfl | rfl
      · simp [isZero] at hz
      · have hy0 := (isZero_iff hi hy).1 hz
        obtain ⟨q, hq⟩ := num_asDouble hi hx (hzy hy0)
        exact mul_zero_result hi hbool hr (hi.mul_zero _ _ _ hq (asDouble_zero hi hy0)) (.inr hy0) hf
  · rcases ha with rfl | rfl
    · cases hf
    rcases hb with rfl | rfl
    · cases hf
    simp only at hf
    cases op with
    | add => exact arith_result hi (g := (· + ·)) (fun _ _ => rfl) hag.1 hag.2 hf
    | sub => exact arith_result hi (g := (· - ·)) (fun _ _ => rfl) hag.1 hag.2 hf
    | mul => exact arith_result hi (g := (· * ·)) (fun _ _ => rfl) hag.1 hag.2.1 hf
    | div => exact div_result hi hag.1 hag.2 hf
    | eq =>
      refine cmp_result hi (fun _ _ => (beq_eq_decide _ _).symm) rfl (fun _ m n => ?_) hf
      cases m <;> cases n <;> rfl
    | ne =>
      refine cmp_result hi (q := fun a b => !fl.eq a b) (fun m n => ?_) ?_ (fun _ m n => ?_) hf
      · simp [icmp, bne, beq_eq_decide]
      · simp only [fcmp]
        have nn : ∀ c : Const F, Const64 c → NotNan fl c → ¬ nan fl (asDouble fl c) := by
          intro c hc hn h
          cases c with
          | real x => exact hn h
          | bool b =>
            obtain ⟨q, hq⟩ := num_asDouble hi hc trivial
            rw [hi.nan_num _ h] at hq
            cases hq
          | int n =>
            obtain ⟨q, hq⟩ := num_asDouble hi hc trivial
            rw [hi.nan_num _ h] at hq
            cases hq
        exact hi.trichotomy _ _ (nn x hx hag.1) (nn y hy hag.2)
      · cases m <;> cases n <;> rfl
    | gt => exact cmp_result hi (fun _ _ => rfl) rfl (fun h => absurd h hag) hf
    | ge => exact cmp_result hi (fun _ _ => rfl) rfl (fun h => absurd h hag) hf
    | lt => exact cmp_result hi (fun _ _ => rfl) rfl (fun h => absurd h hag) hf
    | le => exact cmp_result hi (fun _ _ => rfl) rfl (fun h => absurd h hag) hf
    | and =>
      refine bool_result hi ?_ hf
      simp [evalTm, nonZero_lhs hi hag.1, nonZero_rhs hi hag.2, iop1]
    | or =>
      refine bool_result hi ?_ hf
      simp [evalTm, nonZero_lhs hi hag.1, nonZero_rhs hi hag.2, iop1]

/-- What holds of the unary operations. -/
theorem C65_unary_partial {F : Type} {fl : Floats F} {num : F → Option ℚ} {rnd : ℚ → ℚ} (hi : Ieee fl num rnd)
    (op : UnOp) (res : Ty) (x v : Const F) (hx : Const64 x) (hag : Agree1 op res x) (hf : fold1 fl op res x = .folded v) :
    ∃ w, evalTm fl (constVal x) (constVal x) (lower1 op (convertType x.ty) (convertType res)) = some w ∧
      SameValue fl v w := by
  have h0 : num (fl.ofInt 0) = some 0 := by simpa using ofInt_exact hi 0 (by norm_num)
  cases op with
  | neg =>
    obtain ⟨hb, hr⟩ := hag
    cases x with
    | bool b => simp [Const.ty] at hb
    | int n =>
      simp only [fold1, intLike, getAttrInt64] at hf
      split at hf
      · next hrange =>
        refine int_result hi hrange ?_ hr hf
        have h' : wrap64 (-n) = -n := wrap_eq (by omega)
        simp [evalTm, constVal, iop64, Const.ty, convertType, h']
      · cases hf
    | real a =>
      simp only [fold1, intLike, asDouble] at hf
      refine double_result (b := fl.neg a) ?_ (by simp [evalTm, constVal]) hr hf
      rcases hi.neg_mul a with h | ⟨h1, h2⟩
      · rw [h]
        exact sameD_refl _
      · exact ⟨.inr ⟨h1, h2⟩, by rw [hi.toInt_none _ (hi.nan_num _ h1), hi.toInt_none _ (hi.nan_num _ h2)]⟩
  | not =>
    cases x with
    | bool b =>
      refine bool_result hi (c := !b) ?_ (by simpa [fold1, intLike] using by cases b <;> simpa [fold1, intLike] using hf)
      cases b <;> rfl
    | int n =>
      simp only [fold1, intLike] at hf
      refine bool_result hi ?_ hf
      simp [evalTm, constVal, icmp, Const.ty, convertType, beq_eq_decide]
    | real a =>
      simp only [fold1, intLike, asDouble] at hf
      refine bool_result hi ?_ hf
      simp [evalTm, constVal, fcmp]
  | cast =>
    cases x with
    | bool b =>
      exact bool_result hi (c := b) (by simp [evalTm, constVal]) (by simpa [fold1, intLike, getAttrBool] using hf)
    | int n =>
      simp only [fold1, intLike] at hf
      by_cases hr : res = .bool
      · subst hr
        have hn : n = 0 ∨ n = 1 := by simpa [Agree1, Const.ty] using hag
        simp only [getAttrInt, Res.folded.injEq] at hf
        subst hf
        rcases hn with rfl | rfl <;> exact ⟨_, rfl, rfl⟩
      · exact int_result hi hx rfl hr hf
    | real a =>
      simp only [fold1, intLike, asDouble] at hf
      have hr : res ≠ .bool := by
        rintro rfl
        simp [Agree1, Const.ty] at hag
      exact double_result (sameD_refl _) rfl hr hf

/-- The exact result of the operations on integers that may overflow. -/
def exactInt : BinOp → Int → Int → Option Int
  | .add, m, n => some (m + n)
  | .sub, m, n => some (m - n)
  | .mul, m, n => some (m * n)
  | _, _, _ => none

/-- Two constants are always folded, and the folding has undefined behaviour only when the sum, difference or product of integers
does not have 64 bits, or where the generated code has no value either. -/
theorem C65_undefined_partial {F : Type} {fl : Floats F} {num : F → Option ℚ} {rnd : ℚ → ℚ} (hi : Ieee fl num rnd)
    (op : BinOp) (res : Ty) (x y : Const F) (hag : Agree2 fl num op res x y) :
    fold2 fl op res (some x) (some y) ≠ .kept ∧
      (fold2 fl op res (some x) (some y) = .undefined →
        (∃ m n r, intLike x = some m ∧ intLike y = some n ∧ exactInt op m n = some r ∧ ¬ (-2 ^ 63 ≤ r ∧ r < 2 ^ 63)) ∨
          (res = .int ∧ evalTm fl (constVal x) (constVal y)
            (lower2 op (convertType x.ty) (convertType y.ty) (convertType res)) = none)) := by
  have hbool : ∀ c, getAttrBool fl res c ≠ .kept ∧ getAttrBool fl res c ≠ .undefined := by
    intro c
    cases res <;> simp [getAttrBool, getAttrInt]
  have hbools : ∀ (p : Int → Int → Bool) (q : F → F → Bool),
      onScalars fl (fun m n => getAttrBool fl res (p m n)) (fun a b => getAttrBool fl res (q a b)) x y ≠ .kept ∧
      onScalars fl (fun m n => getAttrBool fl res (p m n)) (fun a b => getAttrBool fl res (q a b)) x y ≠ .undefined := by
    intro p q
    unfold onScalars
    split <;> exact hbool _
  have harith : ∀ (g : Int → Int → Int) (i : IOp) (f : FOp), (∀ m n, exactInt op m n = some (g m n)) → res ≠ .bool →
      lower2 op (convertType x.ty) (convertType y.ty) (convertType res) =
        arithTm (mostGeneric (convertType x.ty) (convertType y.ty)) i f (convertType x.ty) (convertType y.ty) (convertType res) →
      onScalars fl (fun m n => getAttrInt64 fl res (g m n)) (fun a b => getAttrDouble fl res (fop64 fl f a b)) x y ≠ .kept ∧
      (onScalars fl (fun m n => getAttrInt64 fl res (g m n)) (fun a b => getAttrDouble fl res (fop64 fl f a b)) x y = .undefined →
        (∃ m n r, intLike x = some m ∧ intLike y = some n ∧ exactInt op m n = some r ∧ ¬ (-2 ^ 63 ≤ r ∧ r < 2 ^ 63)) ∨
          (res = .int ∧ evalTm fl (constVal x) (constVal y)
            (lower2 op (convertType x.ty) (convertType y.ty) (convertType res)) = none)) := by
    intro g i f hg hr hl
    by_cases hxy : intLike x = none ∨ intLike y = none
    · have e : onScalars fl (fun m n => getAttrInt64 fl res (g m n)) (fun a b => getAttrDouble fl res (fop64 fl f a b)) x y =
          getAttrDouble fl res (fop64 fl f (asDouble fl x) (asDouble fl y)) := by
        unfold onScalars
        rcases hxy with h | h
        · rw [h]
        · rw [h]
          cases intLike x <;> rfl
      rw [e]
      refine ⟨?_, fun h => .inr ?_⟩
      · cases res <;> simp [getAttrDouble]
        split <;> simp
      · cases res with
        | bool => simp at hr
        | real => simp [getAttrDouble] at h
        | int =>
          refine ⟨rfl, ?_⟩
          have ht : fl.toInt (fop64 fl f (asDouble fl x) (asDouble fl y)) = none := by
            simp only [getAttrDouble] at h
            split at h
            · cases h
            · assumption
          rw [hl, mostGeneric_real hxy]
          show evalTm fl _ _ (.fptosi .i64 (.fop f (castTm (convertType x.ty) .f64 .lhs) (castTm (convertType y.ty) .f64 .rhs))) = _
          simp only [evalTm, lhs_double, rhs_double, ht, Option.map]
    · rw [not_or] at hxy
      obtain ⟨m, hm⟩ := Option.ne_none_iff_exists'.1 hxy.1
      obtain ⟨n, hn⟩ := Option.ne_none_iff_exists'.1 hxy.2
      simp only [onScalars, hm, hn, getAttrInt64]
      split
      · cases res <;> simp [getAttrInt]
      · next hr' => exact ⟨by simp, fun _ => .inl ⟨m, n, _, rfl, rfl, hg m n, hr'⟩⟩
  unfold fold2
  split
  · cases res <;> simp [getAttrInt]
  · simp only
    cases op with
    | add => exact harith (· + ·) .addi .addf (fun _ _ => rfl) hag.2 rfl
    | sub => exact harith (· - ·) .subi .subf (fun _ _ => rfl) hag.2 rfl
    | mul => exact harith (· * ·) .muli .mulf (fun _ _ => rfl) hag.2.1 rfl
    | div =>
      have e : foldConstants fl .div res x y = getAttrDouble fl res (fl.div (asDouble fl x) (asDouble fl y)) := by
        simp only [foldConstants, onScalars]
        split
        · next h1 h2 => rw [asDouble_intLike h1, asDouble_intLike h2]
        · rfl
      rw [e]
      refine ⟨?_, fun h => .inr ?_⟩
      · cases res <;> simp [getAttrDouble]
        split <;> simp
      · cases res with
        | bool => exact absurd rfl hag.1
        | real => simp [getAttrDouble] at h
        | int =>
          refine ⟨rfl, ?_⟩
          have ht : fl.toInt (fl.div (asDouble fl x) (asDouble fl y)) = none := by
            simp only [getAttrDouble] at h
            split at h
            · cases h
            · assumption
          simp only [lower2]
          rw [if_neg (by simp [convertType])]
          by_cases hxy : intLike x = none ∨ intLike y = none
          · rw [mostGeneric_real hxy]
            show evalTm fl _ _
              (.fptosi .i64 (.fop .divf (castTm (convertType x.ty) .f64 .lhs) (castTm (convertType y.ty) .f64 .rhs))) = _
            simp only [evalTm, lhs_double, rhs_double, fop64, ht, Option.map]
          · rw [not_or] at hxy
            obtain ⟨m, hm⟩ := Option.ne_none_iff_exists'.1 hxy.1
            obtain ⟨n, hn⟩ := Option.ne_none_iff_exists'.1 hxy.2
            obtain ⟨hb, hsx, hsy⟩ := hag.2 rfl (intLike_ty hm) (intLike_ty hn)
            rw [asDouble_intLike hm, asDouble_intLike hn] at ht
            by_cases hn0 : n = 0
            · subst hn0
              rw [mostGeneric_int hm hn hb]
              show evalTm fl _ _ (.iop .divsi (castTm (convertType x.ty) .i64 .lhs) (castTm (convertType y.ty) .i64 .rhs)) = _
              simp [evalTm, lhs_int hm, rhs_int hn, iop64]
            · rw [div_small hi (small_intLike hm hsx) (small_intLike hn hsy) hn0] at ht
              cases ht
    | eq => exact ⟨(hbools _ _).1, fun h => absurd h (hbools _ _).2⟩
    | ne => exact ⟨(hbools _ (fun a b => !fl.eq a b)).1, fun h => absurd h (hbools _ (fun a b => !fl.eq a b)).2⟩
    | gt => exact ⟨(hbools _ (fun a b => fl.lt b a)).1, fun h => absurd h (hbools _ (fun a b => fl.lt b a)).2⟩
    | ge => exact ⟨(hbools _ (fun a b => fl.le b a)).1, fun h => absurd h (hbools _ (fun a b => fl.le b a)).2⟩
    | lt => exact ⟨(hbools _ _).1, fun h => absurd h (hbools _ _).2⟩
    | le => exact ⟨(hbools _ _).1, fun h => absurd h (hbools _ _).2⟩
    | and => exact ⟨(hbool _).1, fun h => absurd h (hbool _).2⟩
    | or => exact ⟨(hbool _).1, fun h => absurd h (hbool _).2⟩

/-- `2 + 0.5`: an `Integer` and a `Real` are added as `double`. -/
example : Agree2 wide Wide.num .add .real (.int 2) (.real (.fin (1 / 2))) ∧
    fold2 wide .add .real (some (.int 2)) (some (.real (.fin (1 / 2)))) = .folded (.real (.fin (5 / 2))) := by
  refine ⟨by simp [Agree2, Const.ty], ?_⟩
  have : wideRnd 2 = 2 := by simpa using wide_rounding.exact 2 (by norm_num)
  simp [fold2, foldConstants, onScalars, intLike, asDouble, getAttrDouble, wide, Wide.add, this]
  norm_num

/-- `-7 / 2` as an `Integer` is -3. -/
example : Agree2 wide Wide.num .div .int (.int (-7)) (.int 2) ∧
    fold2 wide .div .int (some (.int (-7))) (some (.int 2)) = .folded (.int (-3)) := by
  refine ⟨by simp [Agree2, Const.ty, Small], ?_⟩
  have := div_small wide_ieee (m := -7) (n := 2) (by norm_num) (by norm_num) (by norm_num)
  simp [fold2, foldConstants, onScalars, intLike, getAttrDouble, this]

/-- `0 * y` with a `y` that is not known, and `not 0`. -/
example : Agree2 wide Wide.num .mul .int (.int 0) (.int 5) ∧
    fold2 wide .mul .int (some (.int 0)) none = .folded (.int 0) ∧
    fold1 wide .not .bool (.int 0) = .folded (.bool true) := by
  refine ⟨by simp [Agree2, Const.ty, FiniteConst], ?_, rfl⟩
  simp [fold2, isZero, asDouble, getAttrInt, wide, Wide.eq]

end Marco.Props
