import Verif.Spec.MathFunctions
import Verif.Lemmas.Ranges

/-!
# Lemmas on the mathematical functions
-/

namespace Marco.Fold
open Marco.Spec

/-- An arithmetic with the laws: that of `WideFloats.lean`, with exact functions. -/
def wideMath : MathFloats Wide where
  toFloats := wide
  abs
    | .fin q => .fin |q|
    | .negInf => .posInf
    | x => x
  ceil
    | .fin q => .fin ⌈q⌉
    | x => x
  floor
    | .fin q => .fin ⌊q⌋
    | x => x
  trunc
    | .fin q => .fin (truncRat q)
    | x => x
  fmod
    | .fin p, .fin q => if q = 0 then .nan else .fin (p - truncRat (p / q) * q)
    | _, _ => .nan
  pow
    | .fin p, .fin q => if q.den = 1 ∧ (p ≠ 0 ∨ 0 ≤ q) then .fin (p ^ q.num) else .nan
    | _, _ => .nan

theorem wide_math : MathLaws wideMath Wide.num wideRnd where
  toExactOps := wide_exact
  le_num x y a b hx hy := by
    cases x <;> cases y <;> simp [Wide.num] at hx hy
    subst hx hy
    simp only [wideMath, wide, Wide.lt, Wide.eq]
    rw [Bool.eq_iff_iff]
    simp [le_iff_lt_or_eq]
  abs_num x a hx := by
    cases x <;> simp [Wide.num] at hx
    subst hx; rfl
  ceil_num x a hx := by
    cases x <;> simp [Wide.num] at hx
    subst hx; rfl
  floor_num x a hx := by
    cases x <;> simp [Wide.num] at hx
    subst hx; rfl
  trunc_num x a hx := by
    cases x <;> simp [Wide.num] at hx
    subst hx; rfl
  fmod_num x y a b hx hy hb := by
    cases x <;> cases y <;> simp [Wide.num] at hx hy
    subst hx hy
    simp [wideMath, hb, Wide.num]
  pow_exact x y a n hx hy h0 _ _ _ := by
    cases x <;> cases y <;> simp [Wide.num] at hx hy
    subst hy
    have h1 : a ≠ 0 ∨ (0 : ℚ) ≤ n := h0.imp id (fun h => by exact_mod_cast h)
    simp only [wideMath, Rat.den_intCast, Rat.num_intCast, hx]
    rw [if_pos ⟨trivial, h1⟩]
    rfl

variable {F : Type} {fl : MathFloats F} {num : F → Option ℚ} {rnd : ℚ → ℚ}

/-- The floor of a quotient of small integers is not changed by the rounding. -/
theorem floor_rnd_div (hi : Rounding rnd) {m n : Int} (hm : |m| < 2 ^ 53) (hn0 : n ≠ 0) :
    ⌊rnd ((m : ℚ) / n)⌋ = ⌊(m : ℚ) / n⌋ ∧ |⌊(m : ℚ) / n⌋| ≤ 2 ^ 53 := by
  have hnq : (n : ℚ) ≠ 0 := by exact_mod_cast hn0
  have hna : (1 : ℚ) ≤ |(n : ℚ)| := by exact_mod_cast Int.one_le_abs hn0
  have hmq : |(m : ℚ)| < 2 ^ 53 := by exact_mod_cast hm
  have habs : |(m : ℚ) / n| ≤ |(m : ℚ)| := by
    rw [abs_div]
    exact div_le_self (abs_nonneg _) hna
  have hb := abs_le.mp (habs.trans hmq.le)
  have hk : |⌊(m : ℚ) / n⌋| ≤ 2 ^ 53 := by
    rw [abs_le]
    constructor
    · rw [Int.le_floor]; push_cast; linarith [hb.1]
    · have := (Int.floor_le ((m : ℚ) / n)).trans hb.2
      exact_mod_cast this
  refine ⟨?_, hk⟩
  set k := ⌊(m : ℚ) / n⌋ with hkdef
  have h1 : (k : ℚ) ≤ m / n := Int.floor_le _
  have h2 : (m : ℚ) / n < k + 1 := Int.lt_floor_add_one _
  rw [Int.floor_eq_iff]
  constructor
  · rw [← hi.exact k hk]
    exact hi.mono _ _ h1
  · -- the distance to the next integer is a multiple of `1 / |n|`
    have hgap : (m : ℚ) / n + 1 / |(n : ℚ)| ≤ k + 1 := by
      rcases lt_or_gt_of_ne hn0 with hn | hn
      · have hnq' : (n : ℚ) < 0 := by exact_mod_cast hn
        rw [div_lt_iff_of_neg hnq'] at h2
        have h3 : (k + 1) * n < m := by exact_mod_cast h2
        have h4 : (k + 1) * n + 1 ≤ m := by omega
        have h5 : ((k : ℚ) + 1) * n + 1 ≤ m := by exact_mod_cast h4
        rw [abs_of_neg hnq']
        have : (m : ℚ) / n + 1 / -n = (m - 1) / n := by rw [div_neg, sub_div]; ring
        rw [this, div_le_iff_of_neg hnq']
        linarith
      · have hnq' : (0 : ℚ) < n := by exact_mod_cast hn
        rw [div_lt_iff₀ hnq'] at h2
        have h3 : m < (k + 1) * n := by exact_mod_cast h2
        have h4 : m + 1 ≤ (k + 1) * n := by omega
        have h5 : (m : ℚ) + 1 ≤ ((k : ℚ) + 1) * n := by exact_mod_cast h4
        rw [abs_of_pos hnq', ← add_div, div_le_iff₀ hnq']
        exact h5
    have herr := hi.error ((m : ℚ) / n)
    rw [abs_le] at herr
    have hlt : |(m : ℚ) / n| / 2 ^ 53 < 1 / |(n : ℚ)| := by
      rw [abs_div, div_div, div_lt_div_iff₀ (by positivity) (by positivity)]
      nlinarith [abs_pos.mpr hnq]
    linarith [herr.2]

theorem truncRat_int (n : Int) : truncRat (n : ℚ) = n := by
  unfold truncRat
  split <;> simp

/-- The conversion of an integer to the type of a result. -/
theorem attrInt_represents (hi : Ieee fl.toFloats num rnd) {res : Ty} {n : Int} (hr : res ≠ .bool) (hn : |n| ≤ 2 ^ 63) :
    ∃ v, getAttrInt fl.toFloats res n = .folded v ∧ Represents num rnd v n := by
  cases res with
  | bool => exact absurd rfl hr
  | int => exact ⟨_, rfl, rfl⟩
  | real => exact ⟨_, rfl, .inr (hi.ofInt_num n hn)⟩

/-- The conversion of a `double` that is a number. -/
theorem attrDouble_real {x : F} {q : ℚ} (hx : num x = some q) :
    ∃ v, getAttrDouble fl.toFloats .real x = .folded v ∧ Represents num rnd v q := ⟨_, rfl, .inl hx⟩

/-- The conversion of a `double` that is an integer. -/
theorem attrDouble_int (hi : Ieee fl.toFloats num rnd) {x : F} {n : Int} (hx : num x = some (n : ℚ)) (hn : |(n : ℚ)| < 2 ^ 63) :
    ∃ v, getAttrDouble fl.toFloats .int x = .folded v ∧ Represents num rnd v n := by
  have := hi.toInt_num _ _ hx hn
  rw [truncRat_int] at this
  exact ⟨.int n, by simp only [getAttrDouble, this], rfl⟩

/-- The quotient of small integers, computed with `double`. -/
theorem div_ints (hi : Ieee fl.toFloats num rnd) {m n : Int} (hm : |m| ≤ 2 ^ 53) (hn : |n| ≤ 2 ^ 53) (h0 : n ≠ 0) :
    num (fl.div (fl.ofInt m) (fl.ofInt n)) = some (rnd (m / n)) := by
  have hx := ofInt_exact hi m hm
  have hy := ofInt_exact hi n hn
  have hnq : (n : ℚ) ≠ 0 := by exact_mod_cast h0
  have hna : (1 : ℚ) ≤ |(n : ℚ)| := by exact_mod_cast Int.one_le_abs h0
  have hmq : |(m : ℚ)| ≤ 2 ^ 53 := by exact_mod_cast hm
  have hnq' : |(n : ℚ)| ≤ 2 ^ 53 := by exact_mod_cast hn
  refine hi.div_num _ _ _ _ hx hy hnq ?_ ?_
  · by_cases hm0 : m = 0
    · left; exact_mod_cast hm0
    · right
      have hma : (1 : ℚ) ≤ |(m : ℚ)| := by exact_mod_cast Int.one_le_abs hm0
      rw [abs_div, div_le_div_iff₀ (by norm_num) (by linarith)]
      have : (2 : ℚ) ^ 53 ≤ 2 ^ 64 := by norm_num
      nlinarith
  · rw [abs_div]
    have := div_le_self (abs_nonneg (m : ℚ)) hna
    have h2 : (2 : ℚ) ^ 53 ≤ 2 ^ 64 := by norm_num
    linarith

end Marco.Fold
