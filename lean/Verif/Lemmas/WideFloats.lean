import Verif.Lemmas.Folding

/-!
# An arithmetic with the laws of `Verif/Spec/Arith.lean`

Rational numbers with two infinities and `NaN`, where the conversions from integers and the quotients are rounded. It is a
witness for the laws, not a model of IEEE 754: there are more numbers than `double`, and one zero.
-/

namespace Marco.Fold
open Marco.Spec

/-- The rounding of the numbers which are not negative: above `2^53` to even integers. -/
def rndPos (q : ℚ) : ℚ := if q ≤ 2 ^ 53 then q else 2 * ⌊q / 2 + 1 / 2⌋

/-- The rounding. -/
def wideRnd (q : ℚ) : ℚ := if 0 ≤ q then rndPos q else -rndPos (-q)

inductive Wide where
  | fin (q : ℚ)
  | posInf
  | negInf
  | nan
  deriving DecidableEq

/-- An infinity with the sign of `q`. -/
def Wide.inf (q : ℚ) : Wide := if q = 0 then .nan else if 0 < q then .posInf else .negInf

def Wide.num : Wide → Option ℚ
  | .fin q => some q
  | _ => none

def Wide.neg : Wide → Wide
  | .fin q => .fin (-q)
  | .posInf => .negInf
  | .negInf => .posInf
  | .nan => .nan

def Wide.add : Wide → Wide → Wide
  | .fin p, .fin q => .fin (p + q)
  | .fin _, y => y
  | x, .fin _ => x
  | .posInf, .posInf => .posInf
  | .negInf, .negInf => .negInf
  | _, _ => .nan

def Wide.mul : Wide → Wide → Wide
  | .fin p, .fin q => .fin (p * q)
  | .nan, _ => .nan
  | _, .nan => .nan
  | .fin p, .posInf => .inf p
  | .fin p, .negInf => .inf (-p)
  | .posInf, .fin q => .inf q
  | .negInf, .fin q => .inf (-q)
  | .posInf, .posInf => .posInf
  | .posInf, .negInf => .negInf
  | .negInf, .posInf => .negInf
  | .negInf, .negInf => .posInf

def Wide.div : Wide → Wide → Wide
  | .fin p, .fin q => if q = 0 then .inf p else .fin (wideRnd (p / q))
  | .fin _, .posInf => .fin 0
  | .fin _, .negInf => .fin 0
  | .posInf, .fin q => if q < 0 then .negInf else .posInf
  | .negInf, .fin q => if q < 0 then .posInf else .negInf
  | _, _ => .nan

def Wide.eq : Wide → Wide → Bool
  | .fin p, .fin q => decide (p = q)
  | .posInf, .posInf => true
  | .negInf, .negInf => true
  | _, _ => false

def Wide.lt : Wide → Wide → Bool
  | .fin p, .fin q => decide (p < q)
  | .fin _, .posInf => true
  | .negInf, .fin _ => true
  | .negInf, .posInf => true
  | _, _ => false

def Wide.toInt : Wide → Option Int
  | .fin q => if |q| < 2 ^ 63 then some (truncRat q) else none
  | _ => none

/-- The arithmetic. -/
def wide : Floats Wide where
  ofInt n := .fin (wideRnd n)
  toInt := Wide.toInt
  add := Wide.add
  sub x y := Wide.add x y.neg
  mul := Wide.mul
  div := Wide.div
  neg := Wide.neg
  eq := Wide.eq
  lt := Wide.lt
  le x y := Wide.lt x y || Wide.eq x y

theorem rndPos_nonneg {q : ℚ} (h : 0 ≤ q) : 0 ≤ rndPos q := by
  unfold rndPos
  split
  · exact h
  · have : (0 : Int) ≤ ⌊q / 2 + 1 / 2⌋ := by rw [Int.le_floor]; push_cast; linarith
    have : (0 : ℚ) ≤ ⌊q / 2 + 1 / 2⌋ := by exact_mod_cast this
    linarith

theorem rndPos_mono {p q : ℚ} (h : p ≤ q) : rndPos p ≤ rndPos q := by
  unfold rndPos
  split
  · next hp =>
    split
    · exact h
    · next hq =>
      have : ((2 ^ 52 : Int)) ≤ ⌊q / 2 + 1 / 2⌋ := by rw [Int.le_floor]; push_cast; linarith
      have : ((2 ^ 52 : Int) : ℚ) ≤ ⌊q / 2 + 1 / 2⌋ := by exact_mod_cast this
      push_cast at this
      linarith
  · next hp =>
    rw [if_neg (by linarith)]
    have : ⌊p / 2 + 1 / 2⌋ ≤ ⌊q / 2 + 1 / 2⌋ := Int.floor_mono (by linarith)
    have : (⌊p / 2 + 1 / 2⌋ : ℚ) ≤ ⌊q / 2 + 1 / 2⌋ := by exact_mod_cast this
    linarith

theorem rndPos_error {q : ℚ} (h : 0 ≤ q) : |rndPos q - q| ≤ q / 2 ^ 53 := by
  unfold rndPos
  split
  · rw [sub_self, abs_zero]; positivity
  · next hq =>
    have h1 := Int.floor_le (q / 2 + 1 / 2)
    have h2 := Int.lt_floor_add_one (q / 2 + 1 / 2)
    have h3 : (1 : ℚ) ≤ q / 2 ^ 53 := by rw [le_div_iff₀ (by norm_num)]; linarith
    rw [abs_le]
    constructor <;> linarith

theorem wide_rounding : Rounding wideRnd where
  mono p q h := by
    unfold wideRnd
    split <;> split
    · exact rndPos_mono h
    · linarith
    · have := rndPos_nonneg (q := -p) (by linarith)
      have := rndPos_nonneg (q := q) (by assumption)
      linarith
    · have := rndPos_mono (p := -q) (q := -p) (by linarith)
      linarith
  odd q := by
    unfold wideRnd
    rcases lt_trichotomy q 0 with h | h | h
    · rw [if_pos (by linarith), if_neg (by linarith), neg_neg]
    · subst h; simp [rndPos]
    · rw [if_neg (by linarith), if_pos (by linarith), neg_neg]
  error q := by
    unfold wideRnd
    split
    · next h => rw [abs_of_nonneg h]; exact rndPos_error h
    · next h =>
      have := rndPos_error (q := -q) (by linarith)
      rw [abs_of_neg (by linarith : q < 0), ← abs_neg]
      have e : -(-rndPos (-q) - q) = rndPos (-q) - -q := by ring
      rwa [e]
  exact n h := by
    rw [abs_le] at h
    have h1 : ((-2 ^ 53 : Int) : ℚ) ≤ n := by exact_mod_cast h.1
    have h2 : (n : ℚ) ≤ (2 ^ 53 : Int) := by exact_mod_cast h.2
    push_cast at h1 h2
    unfold wideRnd rndPos
    split
    · rw [if_pos (by linarith)]
    · rw [if_pos (by linarith), neg_neg]
  even n h1 h2 := by
    have h1' : ((2 ^ 53 : Int) : ℚ) ≤ n := by exact_mod_cast h1
    push_cast at h1'
    unfold wideRnd rndPos
    rw [if_pos (by linarith)]
    split
    · next h =>
      have : (n : ℚ) = 2 ^ 53 := le_antisymm h h1'
      refine ⟨2 ^ 52, ?_⟩
      rw [this]; norm_num
    · exact ⟨_, rfl⟩

theorem wideRnd_neg_one : wideRnd (-1) = -1 := by
  simpa using wide_rounding.exact (-1) (by norm_num)

theorem wideRnd_zero : wideRnd 0 = 0 := by
  simpa using wide_rounding.exact 0 (by norm_num)

theorem wideRnd_one : wideRnd 1 = 1 := by
  simpa using wide_rounding.exact 1 (by norm_num)

/-- The laws do not contradict each other. -/
theorem wide_ieee : Ieee wide Wide.num wideRnd where
  rounding := wide_rounding
  eq_num x y a b hx hy := by
    cases x <;> cases y <;> simp [Wide.num] at hx hy
    simp [wide, Wide.eq, hx, hy]
  lt_num x y a b hx hy := by
    cases x <;> cases y <;> simp [Wide.num] at hx hy
    simp [wide, Wide.lt, hx, hy]
  eq_none x y b hx hy := by
    cases x <;> cases y <;> simp [Wide.num] at hx hy <;> simp [wide, Wide.eq]
  trichotomy x y hx hy := by
    cases x <;> cases y <;> simp [Spec.nan, wide, Wide.eq, Wide.lt] at hx hy ⊢
    next p q =>
      rw [Bool.eq_iff_iff]
      simp
  lt_nan x y hx := by
    cases x <;> simp [Spec.nan, wide, Wide.eq] at hx
    cases y <;> simp [wide, Wide.lt]
  nan_num x hx := by
    cases x <;> simp [Spec.nan, wide, Wide.eq] at hx
    rfl
  ofInt_num n _ := rfl
  toInt_num x q hx hq := by
    cases x <;> simp [Wide.num] at hx
    subst hx
    simp only [wide, Wide.toInt, if_pos hq]
  toInt_none x hx := by
    cases x <;> simp [Wide.num] at hx <;> rfl
  neg_mul x := by
    left
    cases x <;> simp [wide, Wide.mul, Wide.neg, Wide.inf, wideRnd_neg_one]
  zero_mul x y b hx hy := by
    cases x <;> cases y <;> simp [Wide.num] at hx hy
    simp [wide, Wide.mul, Wide.num, hx]
  mul_zero x y b hx hy := by
    cases x <;> cases y <;> simp [Wide.num] at hx hy
    simp [wide, Wide.mul, Wide.num, hy]
  zero_mul_inf := by
    simp [Spec.nan, wide, Wide.mul, Wide.div, Wide.inf, Wide.eq, wideRnd_zero, wideRnd_one]
  div_num x y a b hx hy hb _ _ := by
    cases x <;> cases y <;> simp [Wide.num] at hx hy
    subst hx hy
    simp [wide, Wide.div, hb, Wide.num]
  div_zero x y hy := by
    cases y <;> simp [Wide.num] at hy
    subst hy
    cases x with
    | fin q =>
      simp only [wide, Wide.div, if_pos, Wide.inf]
      split
      · rfl
      · split <;> rfl
    | posInf => simp [wide, Wide.div, Wide.num]
    | negInf => simp [wide, Wide.div, Wide.num]
    | nan => simp [wide, Wide.div, Wide.num]
  inf_not_nan := by
    simp [Spec.nan, wide, Wide.div, Wide.inf, Wide.eq, wideRnd_zero, wideRnd_one]
  zero_div_zero := by
    simp [Spec.nan, wide, Wide.div, Wide.inf, Wide.eq, wideRnd_zero]

end Marco.Fold
