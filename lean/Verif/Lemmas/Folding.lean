import Verif.Spec.Arith
import Mathlib.Tactic.Linarith
import Mathlib.Tactic.FieldSimp
import Mathlib.Tactic.Ring
import Mathlib.Tactic.Positivity
import Mathlib.Tactic.NormNum
import Mathlib.Tactic.GCongr

/-!
# Lemmas on the folding of scalar operations
-/

namespace Marco.Fold
open Marco.Spec

variable {F : Type} {fl : Floats F} {num : F → Option ℚ} {rnd : ℚ → ℚ} {x y : AVal F}

theorem ofInt_exact (hi : Ieee fl num rnd) (n : Int) (h : |n| ≤ 2 ^ 53) : num (fl.ofInt n) = some (n : ℚ) := by
  rw [hi.ofInt_num n (h.trans (by norm_num)), hi.rounding.exact n h]

/-- A bit, converted to the type of the result. -/
theorem bool_result (hi : Ieee fl num rnd) {res : Ty} {e : Tm} {c : Bool} {v : Const F}
    (he : evalTm fl x y e = some (.i1 c)) (hf : getAttrBool fl res c = .folded v) :
    ∃ w, evalTm fl x y (castTm .i1 (convertType res) e) = some w ∧ SameValue fl v w := by
  have h0 := ofInt_exact hi 0 (by norm_num)
  have h1 := ofInt_exact hi 1 (by norm_num)
  have e00 := hi.eq_num _ _ _ _ h0 h0
  have e11 := hi.eq_num _ _ _ _ h1 h1
  cases res <;> cases c <;> simp [getAttrBool, getAttrInt] at hf <;> subst hf <;>
    simp [convertType, castTm, evalTm, he, SameValue, e00, e11]

/-- An integer, converted to the type of the result. -/
theorem int_result (hi : Ieee fl num rnd) {res : Ty} {e : Tm} {n : Int} {v : Const F} (hn : -2 ^ 63 ≤ n ∧ n < 2 ^ 63)
    (he : evalTm fl x y e = some (.i64 n)) (hr : res ≠ .bool) (hf : getAttrInt fl res n = .folded v) :
    ∃ w, evalTm fl x y (castTm .i64 (convertType res) e) = some w ∧ SameValue fl v w := by
  have hq := hi.ofInt_num n (by rw [abs_le]; omega)
  have eqq := hi.eq_num _ _ _ _ hq hq
  cases res <;> simp [getAttrInt] at hf hr <;> subst hf <;>
    simp [convertType, castTm, evalTm, he, SameValue, eqq]

/-- Two `double` that nothing tells apart. -/
def SameD (fl : Floats F) (a b : F) : Prop := (fl.eq a b = true ∨ (nan fl a ∧ nan fl b)) ∧ fl.toInt a = fl.toInt b

/-- A `double`, converted to the type of the result. -/
theorem double_result {res : Ty} {e : Tm} {a b : F} {v : Const F} (hs : SameD fl a b)
    (he : evalTm fl x y e = some (.f64 b)) (hr : res ≠ .bool) (hf : getAttrDouble fl res a = .folded v) :
    ∃ w, evalTm fl x y (castTm .f64 (convertType res) e) = some w ∧ SameValue fl v w := by
  cases res with
  | bool => simp at hr
  | int =>
    simp only [getAttrDouble] at hf
    rw [hs.2] at hf
    cases hb : fl.toInt b with
    | none => simp [hb] at hf
    | some n =>
      simp [hb] at hf
      subst hf
      simp [convertType, castTm, evalTm, he, hb, SameValue]
  | real =>
    simp [getAttrDouble] at hf
    subst hf
    refine ⟨.f64 b, by simp [convertType, castTm, he], hs.1⟩

theorem sameD_refl (a : F) : SameD fl a a := by
  refine ⟨?_, rfl⟩
  cases h : fl.eq a a with
  | true => exact .inl rfl
  | false => exact .inr ⟨h, h⟩

theorem lhs_double (c d : Const F) :
    evalTm fl (constVal c) (constVal d) (castTm (convertType c.ty) .f64 .lhs) = some (.f64 (asDouble fl c)) := by
  cases c <;> simp [Const.ty, convertType, castTm, evalTm, constVal, asDouble]

theorem rhs_double (c d : Const F) :
    evalTm fl (constVal c) (constVal d) (castTm (convertType d.ty) .f64 .rhs) = some (.f64 (asDouble fl d)) := by
  cases d <;> simp [Const.ty, convertType, castTm, evalTm, constVal, asDouble]

theorem lhs_int {c d : Const F} {n : Int} (h : intLike c = some n) :
    evalTm fl (constVal c) (constVal d) (castTm (convertType c.ty) .i64 .lhs) = some (.i64 n) := by
  cases c <;> simp [intLike] at h <;> simp [Const.ty, convertType, castTm, evalTm, constVal, h]

theorem rhs_int {c d : Const F} {n : Int} (h : intLike d = some n) :
    evalTm fl (constVal c) (constVal d) (castTm (convertType d.ty) .i64 .rhs) = some (.i64 n) := by
  cases d <;> simp [intLike] at h <;> simp [Const.ty, convertType, castTm, evalTm, constVal, h]

theorem wrap_eq {n : Int} (h : -2 ^ 63 ≤ n ∧ n < 2 ^ 63) : wrap64 n = n := by
  unfold wrap64
  rw [Int.bmod_eq_of_le] <;> omega

theorem mostGeneric_bool {c d : Const F} (h : c.ty = .bool ∧ d.ty = .bool) :
    mostGeneric (convertType c.ty) (convertType d.ty) = .i1 := by
  rw [h.1, h.2]; rfl

theorem mostGeneric_int {c d : Const F} {m n : Int} (hc : intLike c = some m) (hd : intLike d = some n)
    (h : ¬ (c.ty = .bool ∧ d.ty = .bool)) : mostGeneric (convertType c.ty) (convertType d.ty) = .i64 := by
  cases c <;> cases d <;> simp_all [intLike, Const.ty, convertType, mostGeneric]

theorem mostGeneric_real {c d : Const F} (h : intLike c = none ∨ intLike d = none) :
    mostGeneric (convertType c.ty) (convertType d.ty) = .f64 := by
  cases c <;> cases d <;> simp_all [intLike, Const.ty, convertType, mostGeneric]

/-- The value of a constant with 64 bits. -/
theorem intLike_range {c : Const F} {n : Int} (h : Const64 c) (hn : intLike c = some n) : -2 ^ 63 ≤ n ∧ n < 2 ^ 63 := by
  cases c with
  | bool b => cases b <;> simp [intLike] at hn <;> subst hn <;> norm_num
  | int m => simp [intLike] at hn; subst hn; exact h
  | real x => simp [intLike] at hn

/-- The operations on two integers or two `double`. -/
theorem onScalars_cases {ints : Int → Int → Res F} {doubles : F → F → Res F} {c d : Const F} {v : Const F}
    (h : onScalars fl ints doubles c d = .folded v) :
    (∃ m n, intLike c = some m ∧ intLike d = some n ∧ ints m n = .folded v) ∨
      ((intLike c = none ∨ intLike d = none) ∧ doubles (asDouble fl c) (asDouble fl d) = .folded v) := by
  unfold onScalars at h
  cases hc : intLike c <;> cases hd : intLike d <;> simp [hc, hd] at h <;> simp [h]

/-- Addition, subtraction, multiplication. -/
theorem arith_result (hi : Ieee fl num rnd) {i : IOp} {f : FOp} {g : Int → Int → Int} {res : Ty} {c d v : Const F}
    (hg : ∀ m n, iop64 i m n = some (wrap64 (g m n)))
    (hb : ¬ (c.ty = .bool ∧ d.ty = .bool)) (hr : res ≠ .bool)
    (h : onScalars fl (fun m n => getAttrInt64 fl res (g m n)) (fun a b => getAttrDouble fl res (fop64 fl f a b)) c d =
      .folded v) :
    ∃ w, evalTm fl (constVal c) (constVal d)
        (arithTm (mostGeneric (convertType c.ty) (convertType d.ty)) i f (convertType c.ty) (convertType d.ty)
          (convertType res)) = some w ∧ SameValue fl v w := by
  obtain ⟨m, n, hm, hn, h⟩ | ⟨hcd, h⟩ := onScalars_cases h
  · rw [mostGeneric_int hm hn hb]
    simp only [getAttrInt64] at h
    split at h
    · next hrange =>
      refine int_result hi hrange ?_ hr h
      simp [evalTm, lhs_int hm, rhs_int hn, hg, wrap_eq hrange]
    · cases h
  · rw [mostGeneric_real hcd]
    refine double_result (sameD_refl _) ?_ hr h
    simp [evalTm, lhs_double, rhs_double]

/-- Comparisons. -/
theorem cmp_result (hi : Ieee fl num rnd) {i : IPred} {f : FPred} {p : Int → Int → Bool} {q : F → F → Bool} {res : Ty}
    {c d v : Const F} (hp : ∀ m n, icmp i m n = p m n) (hq : fcmp fl f (asDouble fl c) (asDouble fl d) = q (asDouble fl c) (asDouble fl d))
    (hb : c.ty = .bool ∧ d.ty = .bool → ∀ m n : Bool, icmp i (signed1 m) (signed1 n) = p (if m then 1 else 0) (if n then 1 else 0))
    (h : onScalars fl (fun m n => getAttrBool fl res (p m n)) (fun a b => getAttrBool fl res (q a b)) c d = .folded v) :
    ∃ w, evalTm fl (constVal c) (constVal d) (cmpTm i f (convertType c.ty) (convertType d.ty) (convertType res)) = some w ∧
      SameValue fl v w := by
  unfold cmpTm
  obtain ⟨m, n, hm, hn, h⟩ | ⟨hcd, h⟩ := onScalars_cases h
  · by_cases hbool : c.ty = .bool ∧ d.ty = .bool
    · rw [mostGeneric_bool hbool]
      obtain ⟨hc, hd⟩ := hbool
      cases c <;> simp [Const.ty] at hc
      cases d <;> simp [Const.ty] at hd
      simp only [intLike, Option.some.injEq] at hm hn
      subst hm hn
      refine bool_result hi ?_ h
      simp [evalTm, Const.ty, convertType, castTm, constVal, hb]
    · rw [mostGeneric_int hm hn hbool]
      refine bool_result hi ?_ h
      simp [evalTm, lhs_int hm, rhs_int hn, hp]
  · rw [mostGeneric_real hcd]
    refine bool_result hi ?_ h
    simp [evalTm, lhs_double, rhs_double, hq]

theorem num_asDouble (hi : Ieee fl num rnd) {c : Const F} (h : Const64 c) (hf : FiniteConst num c) :
    ∃ q, num (asDouble fl c) = some q := by
  cases c with
  | bool b => cases b <;> exact ⟨_, ofInt_exact hi _ (by norm_num)⟩
  | int n => exact ⟨_, hi.ofInt_num n (by simp only [Const64] at h; rw [abs_le]; omega)⟩
  | real x => simp only [FiniteConst] at hf; exact Option.ne_none_iff_exists'.1 hf

/-- Only zero is rounded to zero. -/
theorem rnd_eq_zero (hi : Rounding rnd) {q : ℚ} (h : rnd q = 0) : q = 0 := by
  have herr := hi.error q
  rw [h, zero_sub, abs_neg] at herr
  have h0 := abs_nonneg q
  have : |q| = 0 := by linarith
  simpa using this

theorem rnd_zero (hi : Rounding rnd) : rnd 0 = 0 := by
  simpa using hi.exact 0 (by norm_num)

/-- The test for the constant zero. -/
theorem isZero_iff (hi : Ieee fl num rnd) {c : Const F} (h : Const64 c) : isZero fl (some c) = true ↔ IsZero num c := by
  have h0 : num (fl.ofInt 0) = some 0 := by simpa using ofInt_exact hi 0 (by norm_num)
  have h1 : num (fl.ofInt 1) = some 1 := by simpa using ofInt_exact hi 1 (by norm_num)
  cases c with
  | bool b =>
    cases b
    · simp [isZero, asDouble, IsZero, hi.eq_num _ _ _ _ h0 h0]
    · simp [isZero, asDouble, IsZero, hi.eq_num _ _ _ _ h1 h0]
  | int n =>
    have hn := hi.ofInt_num n (by simp only [Const64] at h; rw [abs_le]; omega)
    simp only [isZero, asDouble, IsZero, hi.eq_num _ _ _ _ hn h0, decide_eq_true_eq]
    refine ⟨fun h => by simpa using rnd_eq_zero hi.rounding h, ?_⟩
    rintro rfl
    simpa using rnd_zero hi.rounding
  | real x =>
    simp only [isZero, asDouble, IsZero]
    cases hx : num x with
    | none => simp [hi.eq_none _ _ _ hx h0]
    | some q => simp [hi.eq_num _ _ _ _ hx h0]

theorem intLike_zero {c : Const F} {n : Int} (hz : IsZero num c) (hn : intLike c = some n) : n = 0 := by
  cases c <;> simp_all [IsZero, intLike]

theorem asDouble_zero (hi : Ieee fl num rnd) {c : Const F} (hz : IsZero num c) : num (asDouble fl c) = some 0 := by
  have h0 : num (fl.ofInt 0) = some 0 := by simpa using ofInt_exact hi 0 (by norm_num)
  cases c <;> simp_all [IsZero, asDouble]

/-- A product with a zero. -/
theorem mul_zero_result (hi : Ieee fl num rnd) {res : Ty} {c d v : Const F}
    (hb : ¬ (c.ty = .bool ∧ d.ty = .bool)) (hr : res ≠ .bool)
    (hm : num (fl.mul (asDouble fl c) (asDouble fl d)) = some 0)
    (hz : IsZero num c ∨ IsZero num d) (h : getAttrInt fl res 0 = .folded v) :
    ∃ w, evalTm fl (constVal c) (constVal d) (lower2 .mul (convertType c.ty) (convertType d.ty) (convertType res)) = some w ∧
      SameValue fl v w := by
  have h0 : num (fl.ofInt 0) = some 0 := by simpa using ofInt_exact hi 0 (by norm_num)
  simp only [lower2]
  by_cases hcd : intLike c = none ∨ intLike d = none
  · rw [mostGeneric_real hcd]
    have t0 := hi.toInt_num _ _ h0 (by norm_num)
    have tm := hi.toInt_num _ _ hm (by norm_num)
    refine double_result (a := fl.ofInt 0) (b := fl.mul (asDouble fl c) (asDouble fl d)) ⟨.inl ?_, by rw [t0, tm]⟩ ?_ hr ?_
    · rw [hi.eq_num _ _ _ _ h0 hm]
      simp
    · simp [evalTm, lhs_double, rhs_double, fop64]
    · cases res <;> simp_all [getAttrInt, getAttrDouble, truncRat]
  · rw [not_or] at hcd
    obtain ⟨m, hm'⟩ := Option.ne_none_iff_exists'.1 hcd.1
    obtain ⟨n, hn'⟩ := Option.ne_none_iff_exists'.1 hcd.2
    rw [mostGeneric_int hm' hn' hb]
    refine int_result hi (n := 0) (by norm_num) ?_ hr h
    have hmn : m * n = 0 := by
      rcases hz with hz | hz
      · rw [intLike_zero hz hm', Int.zero_mul]
      · rw [intLike_zero hz hn', Int.mul_zero]
    simp [evalTm, lhs_int hm', rhs_int hn', iop64, hmn, wrap64]

/-- The comparison of an operand with zero. -/
theorem nonZero_lhs (hi : Ieee fl num rnd) {c d : Const F} (h : NotNan fl c) :
    evalTm fl (constVal c) (constVal d) (nonZeroTm (convertType c.ty) .lhs) = some (.i1 (nonZero fl c)) := by
  have h0 : num (fl.ofInt 0) = some 0 := by simpa using ofInt_exact hi 0 (by norm_num)
  have hn0 : ¬ nan fl (fl.ofInt 0) := fun hn => by rw [hi.nan_num _ hn] at h0; cases h0
  cases c with
  | bool b => cases b <;> simp [Const.ty, convertType, nonZeroTm, evalTm, constVal, icmp, signed1, nonZero, intLike]
  | int n =>
    simp [Const.ty, convertType, nonZeroTm, evalTm, constVal, icmp, nonZero, intLike, bne, beq_eq_decide]
  | real x =>
    simp [Const.ty, convertType, nonZeroTm, evalTm, constVal, fcmp, nonZero, intLike, asDouble,
      hi.trichotomy x (fl.ofInt 0) h hn0]

theorem nonZero_rhs (hi : Ieee fl num rnd) {c d : Const F} (h : NotNan fl d) :
    evalTm fl (constVal c) (constVal d) (nonZeroTm (convertType d.ty) .rhs) = some (.i1 (nonZero fl d)) := by
  have h0 : num (fl.ofInt 0) = some 0 := by simpa using ofInt_exact hi 0 (by norm_num)
  have hn0 : ¬ nan fl (fl.ofInt 0) := fun hn => by rw [hi.nan_num _ hn] at h0; cases h0
  cases d with
  | bool b => cases b <;> simp [Const.ty, convertType, nonZeroTm, evalTm, constVal, icmp, signed1, nonZero, intLike]
  | int n =>
    simp [Const.ty, convertType, nonZeroTm, evalTm, constVal, icmp, nonZero, intLike, bne, beq_eq_decide]
  | real x =>
    simp [Const.ty, convertType, nonZeroTm, evalTm, constVal, fcmp, nonZero, intLike, asDouble,
      hi.trichotomy x (fl.ofInt 0) h hn0]

theorem truncRat_neg (q : ℚ) : truncRat (-q) = -truncRat q := by
  unfold truncRat
  rcases lt_trichotomy q 0 with h | h | h
  · rw [if_pos (by linarith), if_neg (by linarith), Int.floor_neg]
  · subst h; simp
  · rw [if_neg (by linarith), if_pos (by linarith), Int.ceil_neg]

theorem rnd_div_nonneg (hi : Rounding rnd) {m n : Int} (hm0 : 0 ≤ m) (hm : m < 2 ^ 53) (hn : 0 < n) :
    truncRat (rnd (m / n)) = m / n ∧ 0 ≤ rnd ((m : ℚ) / n) ∧ rnd ((m : ℚ) / n) < 2 ^ 63 := by
  have hnq : (0 : ℚ) < n := by exact_mod_cast hn
  have hmq : (0 : ℚ) ≤ m := by exact_mod_cast hm0
  have hmq' : (m : ℚ) < 2 ^ 53 := by exact_mod_cast hm
  have hk0 : 0 ≤ m / n := Int.ediv_nonneg hm0 hn.le
  have hkm : m / n ≤ m := Int.ediv_le_self n hm0
  have h1 : n * (m / n) + m % n = m := Int.mul_ediv_add_emod m n
  have h2 := Int.emod_nonneg m hn.ne'
  have h3 := Int.emod_lt_of_pos m hn
  have hlow : n * (m / n) ≤ m := by omega
  have hup : m + 1 ≤ n * (m / n + 1) := by rw [mul_add]; omega
  set k := m / n with hk
  have hlowq : (n : ℚ) * k ≤ m := by exact_mod_cast hlow
  have hupq : (m : ℚ) + 1 ≤ n * (k + 1) := by exact_mod_cast hup
  have hks : (k : ℚ) ≤ m / n := by rw [le_div_iff₀ hnq]; linarith
  have hkr : (k : ℚ) ≤ rnd (m / n) := by
    rw [← hi.exact k (by rw [abs_of_nonneg hk0]; omega)]
    exact hi.mono _ _ hks
  have hs0 : (0 : ℚ) ≤ m / n := div_nonneg hmq hnq.le
  have herr := hi.error ((m : ℚ) / n)
  rw [abs_of_nonneg hs0, abs_le] at herr
  have hrk : rnd ((m : ℚ) / n) < k + 1 := by
    have hlt : (m : ℚ) / n + m / n / 2 ^ 53 < k + 1 := by
      have : ((m : ℚ) + m / 2 ^ 53) / n < k + 1 := by
        rw [div_lt_iff₀ hnq]
        have : (m : ℚ) / 2 ^ 53 < 1 := by rw [div_lt_one (by norm_num)]; exact hmq'
        linarith
      have e : ((m : ℚ) + m / 2 ^ 53) / n = (m : ℚ) / n + m / n / 2 ^ 53 := by
        rw [add_div, div_right_comm]
      rwa [e] at this
    linarith [herr.2]
  have hk0q : (0 : ℚ) ≤ k := by exact_mod_cast hk0
  refine ⟨?_, hk0q.trans hkr, ?_⟩
  · unfold truncRat
    rw [if_pos (hk0q.trans hkr), Int.floor_eq_iff]
    exact ⟨hkr, hrk⟩
  · have : (k : ℚ) ≤ m := by exact_mod_cast hkm
    linarith

/-- The quotient of two integers below `2^53`, computed with `double` and cut off. -/
theorem trunc_rnd_div (hi : Rounding rnd) {m n : Int} (hm : |m| < 2 ^ 53) (hn0 : n ≠ 0) :
    truncRat (rnd (m / n)) = Int.tdiv m n ∧ |rnd ((m : ℚ) / n)| < 2 ^ 63 := by
  have key : ∀ m n : Int, 0 ≤ m → m < 2 ^ 53 → 0 < n →
      truncRat (rnd (m / n)) = Int.tdiv m n ∧ |rnd ((m : ℚ) / n)| < 2 ^ 63 := by
    intro m n h0 h1 h2
    obtain ⟨h, h', h''⟩ := rnd_div_nonneg hi h0 h1 h2
    exact ⟨by rw [h, Int.tdiv_eq_ediv_of_nonneg h0], by rwa [abs_of_nonneg h']⟩
  rw [abs_lt] at hm
  rcases le_or_gt 0 m with h0 | h0 <;> rcases lt_or_gt_of_ne hn0 with h1 | h1
  · obtain ⟨h, h'⟩ := key m (-n) h0 (by omega) (by omega)
    have e : (m : ℚ) / (-n : Int) = -(m / n) := by push_cast; rw [div_neg]
    rw [e, hi.odd] at h h'
    rw [truncRat_neg, Int.tdiv_neg] at h
    rw [abs_neg] at h'
    exact ⟨by omega, h'⟩
  · exact key m n h0 (by omega) h1
  · obtain ⟨h, h'⟩ := key (-m) (-n) (by omega) (by omega) (by omega)
    have e : ((-m : Int) : ℚ) / (-n : Int) = m / n := by push_cast; rw [neg_div_neg_eq]
    rw [e] at h h'
    rw [Int.tdiv_neg, Int.neg_tdiv, neg_neg] at h
    exact ⟨h, h'⟩
  · obtain ⟨h, h'⟩ := key (-m) n (by omega) (by omega) h1
    have e : ((-m : Int) : ℚ) / n = -(m / n) := by push_cast; rw [neg_div]
    rw [e, hi.odd] at h h'
    rw [truncRat_neg, Int.neg_tdiv] at h
    rw [abs_neg] at h'
    exact ⟨by omega, h'⟩

/-- The quotient of two small integers in `double`. -/
theorem div_small (hi : Ieee fl num rnd) {m n : Int} (hm : |m| < 2 ^ 53) (hn : |n| < 2 ^ 53) (hn0 : n ≠ 0) :
    fl.toInt (fl.div (fl.ofInt m) (fl.ofInt n)) = some (Int.tdiv m n) := by
  obtain ⟨h, h'⟩ := trunc_rnd_div hi.rounding hm hn0
  have hnq : (n : ℚ) ≠ 0 := by exact_mod_cast hn0
  have habs : |(m : ℚ) / n| = |(m : ℚ)| / |(n : ℚ)| := abs_div _ _
  have hnpos : (0 : ℚ) < |(n : ℚ)| := abs_pos.2 hnq
  have hn1 : (1 : ℚ) ≤ |(n : ℚ)| := by
    have : 1 ≤ |n| := Int.one_le_abs hn0
    exact_mod_cast this
  have hnlt : |(n : ℚ)| < 2 ^ 53 := by exact_mod_cast hn
  have hmlt : |(m : ℚ)| < 2 ^ 53 := by exact_mod_cast hm
  rw [← h]
  refine hi.toInt_num _ _ (hi.div_num _ _ _ _ (ofInt_exact hi m hm.le) (ofInt_exact hi n hn.le) hnq ?_ ?_) h'
  · rcases eq_or_ne m 0 with hm0 | hm0
    · left; simp [hm0]
    · right
      have hm1 : (1 : ℚ) ≤ |(m : ℚ)| := by
        have : 1 ≤ |m| := Int.one_le_abs hm0
        exact_mod_cast this
      rw [habs, le_div_iff₀ hnpos]
      have : (1 : ℚ) / 2 ^ 64 * |(n : ℚ)| ≤ 1 / 2 ^ 64 * 2 ^ 53 := by gcongr
      have : (1 : ℚ) / 2 ^ 64 * 2 ^ 53 ≤ 1 := by norm_num
      linarith
  · rw [habs, div_le_iff₀ hnpos]
    have : (2 : ℚ) ^ 64 * 1 ≤ 2 ^ 64 * |(n : ℚ)| := by gcongr
    have : (2 : ℚ) ^ 53 ≤ 2 ^ 64 := by norm_num
    linarith

theorem asDouble_intLike {c : Const F} {n : Int} (h : intLike c = some n) : asDouble fl c = fl.ofInt n := by
  cases c <;> simp_all [intLike, asDouble]

theorem intLike_ty {c : Const F} {n : Int} (h : intLike c = some n) : c.ty ≠ .real := by
  cases c <;> simp_all [intLike, Const.ty]

theorem small_intLike {c : Const F} {n : Int} (h : intLike c = some n) (hs : Small c) : |n| < 2 ^ 53 := by
  cases c with
  | bool b => cases b <;> simp [intLike] at h <;> subst h <;> norm_num
  | int m => simp [intLike] at h; subst h; exact hs
  | real x => simp [intLike] at h

/-- Division. -/
theorem div_result (hi : Ieee fl num rnd) {res : Ty} {c d v : Const F} (hr : res ≠ .bool)
    (hs : res = .int → c.ty ≠ .real → d.ty ≠ .real → ¬ (c.ty = .bool ∧ d.ty = .bool) ∧ Small c ∧ Small d)
    (h : foldConstants fl .div res c d = .folded v) :
    ∃ w, evalTm fl (constVal c) (constVal d) (lower2 .div (convertType c.ty) (convertType d.ty) (convertType res)) = some w ∧
      SameValue fl v w := by
  have hd : getAttrDouble fl res (fl.div (asDouble fl c) (asDouble fl d)) = .folded v := by
    simp only [foldConstants] at h
    obtain ⟨m, n, hm, hn, h⟩ | ⟨-, h⟩ := onScalars_cases h
    · rwa [asDouble_intLike hm, asDouble_intLike hn]
    · exact h
  have hdiv : evalTm fl (constVal c) (constVal d)
      (.fop .divf (castTm (convertType c.ty) .f64 .lhs) (castTm (convertType d.ty) .f64 .rhs)) =
      some (.f64 (fl.div (asDouble fl c) (asDouble fl d))) := by
    simp [evalTm, lhs_double, rhs_double, fop64]
  simp only [lower2]
  cases res with
  | bool => simp at hr
  | real =>
    rw [if_pos (by rfl)]
    exact double_result (sameD_refl _) hdiv hr hd
  | int =>
    rw [if_neg (by simp [convertType])]
    by_cases hcd : intLike c = none ∨ intLike d = none
    · rw [mostGeneric_real hcd]
      exact double_result (sameD_refl _) hdiv hr hd
    · rw [not_or] at hcd
      obtain ⟨m, hm⟩ := Option.ne_none_iff_exists'.1 hcd.1
      obtain ⟨n, hn⟩ := Option.ne_none_iff_exists'.1 hcd.2
      obtain ⟨hb, hsc, hsd⟩ := hs rfl (intLike_ty hm) (intLike_ty hn)
      have hms := small_intLike hm hsc
      have hns := small_intLike hn hsd
      rw [mostGeneric_int hm hn hb]
      rw [asDouble_intLike hm, asDouble_intLike hn] at hd
      by_cases hn0 : n = 0
      · subst hn0
        have h0 : num (fl.ofInt 0) = some 0 := by simpa using ofInt_exact hi 0 (by norm_num)
        simp [getAttrDouble, hi.toInt_none _ (hi.div_zero (fl.ofInt m) _ h0)] at hd
      · simp only [getAttrDouble, div_small hi hms hns hn0] at hd
        simp only [Res.folded.injEq] at hd
        subst hd
        refine ⟨.i64 (Int.tdiv m n), ?_, rfl⟩
        have hmin : ¬ (n = 0 ∨ m = -2 ^ 63 ∧ n = -1) := by
          rw [abs_lt] at hms
          omega
        show evalTm fl (constVal c) (constVal d)
          (.iop .divsi (castTm (convertType c.ty) .i64 .lhs) (castTm (convertType d.ty) .i64 .rhs)) = _
        simp only [evalTm, lhs_int hm, rhs_int hn]
        simp only [iop64, if_neg hmin, Option.map]

end Marco.Fold
