import Verif.Spec.Ranges
import Verif.Lemmas.WideFloats

/-!
# Lemmas on the sizes of ranges
-/

namespace Marco.Fold
open Marco.Spec

theorem rndPos_idem {q : ℚ} : rndPos (rndPos q) = rndPos q := by
  by_cases hq : q ≤ 2 ^ 53
  · simp only [rndPos, if_pos hq]
  · have e : rndPos q = 2 * ⌊q / 2 + 1 / 2⌋ := by simp only [rndPos, if_neg hq]
    rw [e]
    unfold rndPos
    split
    · rfl
    · have : (2 * (⌊q / 2 + 1 / 2⌋ : ℚ)) / 2 + 1 / 2 = ⌊q / 2 + 1 / 2⌋ + 1 / 2 := by ring
      rw [this]
      have h2 : ⌊(⌊q / 2 + 1 / 2⌋ : ℚ) + 1 / 2⌋ = ⌊q / 2 + 1 / 2⌋ := by
        rw [Int.floor_intCast_add]
        norm_num
      rw [h2]

theorem wideRnd_idem (q : ℚ) : wideRnd (wideRnd q) = wideRnd q := by
  rcases le_or_gt 0 q with h | h
  · have e : wideRnd q = rndPos q := by unfold wideRnd; rw [if_pos h]
    rw [e]
    unfold wideRnd
    rw [if_pos (rndPos_nonneg h), rndPos_idem]
  · have e : wideRnd q = -wideRnd (-q) := by rw [wide_rounding.odd, neg_neg]
    have e2 : wideRnd (-q) = rndPos (-q) := by unfold wideRnd; rw [if_pos (by linarith)]
    rw [e, wide_rounding.odd, e2]
    have : wideRnd (rndPos (-q)) = rndPos (-q) := by
      unfold wideRnd
      rw [if_pos (rndPos_nonneg (by linarith)), rndPos_idem]
    rw [this]

theorem wideRnd_small {q : ℚ} (h : |q| ≤ 2 ^ 53) : wideRnd q = q := by
  rw [abs_le] at h
  unfold wideRnd rndPos
  split
  · rw [if_pos h.2]
  · rw [if_pos (by linarith), neg_neg]

theorem wide_exact : ExactOps wide Wide.num wideRnd where
  toIeee := wide_ieee
  dyadic n k hn _ := by
    refine wideRnd_small ?_
    rw [abs_div, abs_of_pos (by positivity : (0 : ℚ) < 2 ^ k)]
    have h1 : |(n : ℚ)| ≤ 2 ^ 53 := by exact_mod_cast hn
    have h2 : (1 : ℚ) ≤ 2 ^ k := one_le_pow₀ (by norm_num)
    rw [div_le_iff₀ (by positivity)]
    nlinarith
  idem := wideRnd_idem
  add_exact x y a b hx hy _ _ := by
    cases x <;> cases y <;> simp [Wide.num] at hx hy
    simp [wide, Wide.add, Wide.num, hx, hy]
  sub_exact x y a b hx hy _ _ := by
    cases x <;> cases y <;> simp [Wide.num] at hx hy
    simp [wide, Wide.add, Wide.neg, Wide.num, hx, hy, sub_eq_add_neg]
  mul_exact x y a b hx hy _ _ _ := by
    cases x <;> cases y <;> simp [Wide.num] at hx hy
    simp [wide, Wide.mul, Wide.num, hx, hy]

/-- A range that is not empty has one element more than the integer part of the quotient. -/
theorem size_floor {b e s : ℚ} (h0 : s ≠ 0) (h : 0 ≤ (e - b) / s) : RangeSizeIs b e s (1 + ⌊(e - b) / s⌋) := by
  constructor
  · have := Int.floor_nonneg.mpr h
    omega
  · intro i
    have e1 : (i : Int) < 1 + ⌊(e - b) / s⌋ ↔ (i : Int) ≤ ⌊(e - b) / s⌋ := by omega
    rw [e1, Int.le_floor]
    unfold InSteps
    push_cast
    rcases lt_or_gt_of_ne h0 with hs | hs
    · rw [le_div_iff_of_neg hs]
      constructor
      · intro hle; right; exact ⟨hs, by linarith⟩
      · rintro (⟨h1, _⟩ | ⟨_, h2⟩)
        · linarith
        · linarith
    · rw [le_div_iff₀ hs]
      constructor
      · intro hle; left; exact ⟨hs, by linarith⟩
      · rintro (⟨_, h2⟩ | ⟨h1, _⟩)
        · linarith
        · linarith

/-- A range is empty when its end is on the other side of its begin. -/
theorem size_empty {b e s : ℚ} (h : (e - b) / s < 0) : RangeSizeIs b e s 0 := by
  refine ⟨le_rfl, fun i => ?_⟩
  constructor
  · intro hi; omega
  · rintro (⟨h1, h2⟩ | ⟨h1, h2⟩)
    · exfalso
      have : 0 ≤ (e - b) / s := div_nonneg (by nlinarith [mul_nonneg (Nat.cast_nonneg (α := ℚ) i) h1.le]) h1.le
      linarith
    · exfalso
      have : 0 ≤ (e - b) / s := div_nonneg_of_nonpos
        (by nlinarith [mul_nonneg (Nat.cast_nonneg (α := ℚ) i) (neg_nonneg.mpr h1.le)]) h1.le
      linarith

theorem size_unique {b e s : ℚ} {m n : Int} (hm : RangeSizeIs b e s m) (hn : RangeSizeIs b e s n) : m = n := by
  obtain ⟨m0, hm⟩ := hm
  obtain ⟨n0, hn⟩ := hn
  rcases lt_trichotomy m n with h | h | h
  · exfalso
    have h1 := (hn m.toNat).mp (by omega)
    have h2 := (hm m.toNat).mpr h1
    omega
  · exact h
  · exfalso
    have h1 := (hm n.toNat).mp (by omega)
    have h2 := (hn n.toNat).mpr h1
    omega

/-- The quotient of integers, towards zero. -/
theorem truncRat_div (m n : Int) (h : n ≠ 0) : truncRat ((m : ℚ) / n) = Int.tdiv m n := by
  have key : ∀ m n : Int, 0 ≤ m → 0 < n → truncRat ((m : ℚ) / n) = Int.tdiv m n := by
    intro m n hm hn
    unfold truncRat
    have hnq : (0 : ℚ) < n := by exact_mod_cast hn
    have hmq : (0 : ℚ) ≤ m := by exact_mod_cast hm
    rw [if_pos (div_nonneg hmq hnq.le), Int.tdiv_eq_ediv_of_nonneg hm]
    have h1 : n * (m / n) + m % n = m := Int.mul_ediv_add_emod m n
    have h2 := Int.emod_nonneg m hn.ne'
    have h3 := Int.emod_lt_of_pos m hn
    have hlow : n * (m / n) ≤ m := by omega
    have hup : m + 1 ≤ n * (m / n + 1) := by rw [mul_add]; omega
    have hlowq : (n : ℚ) * ((m / n : Int) : ℚ) ≤ m := by exact_mod_cast hlow
    have hupq : (m : ℚ) + 1 ≤ n * (((m / n : Int) : ℚ) + 1) := by exact_mod_cast hup
    rw [Int.floor_eq_iff, le_div_iff₀ hnq, div_lt_iff₀ hnq]
    constructor <;> linarith
  rcases le_or_gt 0 m with hm | hm <;> rcases lt_or_gt_of_ne h with hn | hn
  · have := key m (-n) hm (by omega)
    rw [Int.tdiv_neg] at this
    have e : (m : ℚ) / ((-n : Int) : ℚ) = -((m : ℚ) / n) := by push_cast; rw [div_neg]
    rw [e, truncRat_neg] at this
    omega
  · exact key m n hm hn
  · have := key (-m) (-n) (by omega) (by omega)
    rw [Int.neg_tdiv, Int.tdiv_neg, neg_neg] at this
    have e : ((-m : Int) : ℚ) / ((-n : Int) : ℚ) = (m : ℚ) / n := by push_cast; rw [neg_div_neg_eq]
    rwa [e] at this
  · have := key (-m) n (by omega) hn
    rw [Int.neg_tdiv] at this
    have e : ((-m : Int) : ℚ) / (n : ℚ) = -((m : ℚ) / n) := by push_cast; rw [neg_div]
    rw [e, truncRat_neg] at this
    omega

/-- Equal shifts of the bounds shift the elements. -/
theorem element_shift {b e s c x : ℚ} : RangeElement (b + c) (e + c) s x ↔ RangeElement b e s (x - c) := by
  unfold RangeElement InSteps
  constructor
  · rintro ⟨i, h, rfl⟩
    refine ⟨i, h.imp (fun ⟨h1, h2⟩ => ⟨h1, by linarith⟩) (fun ⟨h1, h2⟩ => ⟨h1, by linarith⟩), by ring⟩
  · rintro ⟨i, h, hx⟩
    refine ⟨i, h.imp (fun ⟨h1, h2⟩ => ⟨h1, by linarith⟩) (fun ⟨h1, h2⟩ => ⟨h1, by linarith⟩), by linarith⟩

end Marco.Fold
