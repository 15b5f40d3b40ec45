import Verif.Lemmas.Distribution
import Mathlib.Tactic.NormNum

/-!
# C97: the distribution of negations, products and quotients keeps the value

In full: if an expression has a type and a value, then after one of the three passes it has the same type and the same
value.

It is so for negations. Quotients keep the value, but the new operations may have no type. Products keep the value if the
factor that is distributed is a number that is not zero.
-/

namespace Marco.Props
open Marco.Distr Marco.Spec.Distr

/-- The property. -/
def C97_full : Prop :=
  ∀ (t : Target), (t = .neg ∨ t = .mul ∨ t = .div) → ∀ (ρ : ℕ → Value) (rk : ℕ → ℕ), (∀ i, rk i = (ρ i).rank) →
    ∀ (e : Ex) (n : ℕ) (v : Value), rank rk e = some n → Has ρ e v →
      rank rk (pass t e) = some n ∧ Has ρ (pass t e) v

/-- Negations: the type and the value are kept. -/
theorem C97_neg_partial (ρ : ℕ → Value) (rk : ℕ → ℕ) (e : Ex) :
    rank rk (pass .neg e) = rank rk e ∧ ∀ v, Has ρ e v → Has ρ (pass .neg e) v := by
  induction e with
  | leaf i => exact ⟨rfl, fun _ h => h⟩
  | neg e ih =>
    have hr : rank rk (pass .neg (.neg e)) = rank rk (pass .neg e) := by
      simp only [pass, distribute]
      split
      · exact distNeg_rank rk _
      · rfl
    refine ⟨hr.trans ih.1, fun v h => ?_⟩
    cases h with
    | neg h =>
      simp only [pass, distribute]
      split
      · rw [neg_eq]
        exact distNeg_has (ih.2 _ h)
      · exact .neg (ih.2 _ h)
  | bin o l r ihl ihr =>
    have : pass .neg (.bin o l r) = .bin o (pass .neg l) (pass .neg r) := rfl
    rw [this]
    refine ⟨by simp only [rank, ihl.1, ihr.1], fun v h => ?_⟩
    cases h with
    | bin hl hr h => exact .bin (ihl.2 _ hl) (ihr.2 _ hr) h

/-- Quotients: the value is kept. -/
theorem C97_div_partial (ρ : ℕ → Value) (e : Ex) (v : Value) (h : Has ρ e v) : Has ρ (pass .div e) v := by
  induction h with
  | leaf => exact .leaf
  | neg _ ih => exact .neg ih
  | @bin o l r a b c hl hr h ihl ihr =>
    cases o with
    | div =>
      obtain ⟨x, rfl, hx, rfl⟩ := h
      simp only [pass, distribute]
      split
      · have : (a.map fun y => y / x) = scale x⁻¹ a := map_congr (fun y => by ring) a
        rw [this]
        exact (dist_has ihr hx ihl).2
      · exact .bin ihl ihr ⟨x, rfl, hx, rfl⟩
    | _ => exact .bin ihl ihr h

/-- Quotients of numbers: the type is kept. -/
theorem C97_div_type_partial (rk : ℕ → ℕ) (h0 : ∀ i, rk i = 0) (e : Ex) :
    rank rk e = some 0 ∧ rank rk (pass .div e) = some 0 :=
  ⟨(dist_rank h0 (v := .leaf 0) (by simp [rank, h0]) e).1, (dist_rank h0 (v := .leaf 0) (by simp [rank, h0]) _).1⟩

/-- A product, the factor that is distributed being a number other than zero: the value is kept, whatever the other factor.
The factor is the right one, if the left one is an operation. -/
theorem C97_factor_partial (ρ : ℕ → Value) (l r : Ex) (a b c : Value) (hl : Has ρ l a) (hr : Has ρ r b)
    (h : Product a b c) (hf : ∃ x ≠ 0, if l.isOp then b = .num x else a = .num x) :
    Has ρ (distribute .mul (.bin .mul l r)) c := by
  obtain ⟨x, hx, hf⟩ := hf
  simp only [distribute]
  split at hf
  · rename_i hlo
    subst hf
    rw [if_pos hlo, product_num h]
    exact (dist_has hr hx hl).1
  · rename_i hlo
    subst hf
    rw [if_neg hlo]
    split
    · rw [product_num' h]
      exact (dist_has hl hx hr).1
    · exact .bin hl hr h

/-- Products of numbers, without quotients by operations: the type and the value are kept. -/
theorem C97_mul_partial (ρ : ℕ → Value) (hρ : ∀ i, ∃ x, ρ i = .num x) (rk : ℕ → ℕ) (h0 : ∀ i, rk i = 0) (e : Ex)
    (hq : NoQuotient e) (v : Value) (h : Has ρ e v) :
    rank rk e = some 0 ∧ rank rk (pass .mul e) = some 0 ∧ Has ρ (pass .mul e) v := by
  refine ⟨(dist_rank h0 (v := .leaf 0) (by simp [rank, h0]) e).1, (dist_rank h0 (v := .leaf 0) (by simp [rank, h0]) _).1, ?_⟩
  have key : ∀ e, NoQuotient e → (NoQuotient (pass .mul e) ∧ (e.isOp = (pass .mul e).isOp)) ∧
      ∀ v, Has ρ e v → Has ρ (pass .mul e) v := by
    intro e
    induction e with
    | leaf i => exact fun _ => ⟨⟨trivial, rfl⟩, fun _ h => h⟩
    | neg e ih =>
      intro hq
      obtain ⟨⟨h1, h2⟩, h3⟩ := ih hq
      refine ⟨⟨h1, rfl⟩, fun v h => ?_⟩
      cases h with
      | neg h => exact .neg (h3 _ h)
    | bin o l r ihl ihr =>
      rintro ⟨ql, qr, hd⟩
      obtain ⟨⟨l1, l2⟩, l3⟩ := ihl ql
      obtain ⟨⟨r1, r2⟩, r3⟩ := ihr qr
      by_cases ho : o = .mul
      · subst ho
        simp only [pass, distribute]
        refine ⟨⟨?_, ?_⟩, fun v h => ?_⟩
        · split
          · exact noQuotient_distMul r1 l1
          split
          · exact noQuotient_distMul l1 r1
          · exact ⟨l1, r1, by simp⟩
        · split
          · rw [isOp_distMul]
            rfl
          split
          · rw [isOp_distMul]
            rfl
          · rfl
        · cases h with
          | @bin _ _ _ a b _ hl hr h =>
            obtain ⟨x, rfl⟩ := has_num hρ hl
            obtain ⟨y, rfl⟩ := has_num hρ hr
            split
            · rw [product_num h]
              exact distMul_has (r3 _ hr) (l3 _ hl) l1
            split
            · rw [product_num' h]
              exact distMul_has (l3 _ hl) (r3 _ hr) r1
            · exact .bin (l3 _ hl) (r3 _ hr) h
      · have : pass .mul (.bin o l r) = .bin o (pass .mul l) (pass .mul r) := by
          cases o <;> first | rfl | exact absurd rfl ho
        rw [this]
        refine ⟨⟨⟨l1, r1, by rwa [← l2, ← r2]⟩, rfl⟩, fun v h => ?_⟩
        cases h with
        | bin hl hr h => exact .bin (l3 _ hl) (r3 _ hr) h
  exact (key e hq).2 v h

/-- The element-wise products and quotients, for which there are no passes, if the factor or divisor that is distributed is a
number other than zero: the value is kept. -/
theorem C97_elementwise_partial (ρ : ℕ → Value) (l r : Ex) (a b c : Value) (hl : Has ρ l a) (hr : Has ρ r b) :
    (Has ρ (.bin .mulEW l r) c → Elem (· * ·) a b c →
      (∃ x ≠ 0, if l.isOp then b = .num x else if r.isOp then a = .num x else True) →
      Has ρ (distribute .mulEW (.bin .mulEW l r)) c) ∧
    (∀ x ≠ 0, b = .num x → Has ρ (distribute .divEW (.bin .divEW l r)) (a.map fun y => y / x)) := by
  constructor
  · rintro h0 h ⟨x, hx, hf⟩
    simp only [distribute]
    split at hf
    · rename_i hlo
      subst hf
      rw [if_pos hlo]
      have : c = scale x a := by
        cases h with
        | zip h => cases h; rfl
        | left => simp only [scale, Value.map]
        | right => rfl
      rw [this]
      exact (dist_has hr hx hl).1
    · rename_i hlo
      rw [if_neg hlo]
      split at hf
      · rename_i hro
        subst hf
        rw [if_pos hro]
        have : c = scale x b := by
          cases h with
          | zip h => cases h; simp only [scale, Value.map]; congr 1; ring
          | left => exact map_congr (fun y => by ring) b
          | right => simp only [scale, Value.map]; congr 1; ring
        rw [this]
        exact (dist_has hl hx hr).1
      · rename_i hro
        rw [if_neg hro]
        exact h0
  · rintro x hx rfl
    simp only [distribute]
    split
    · have : (a.map fun y => y / x) = scale x⁻¹ a := map_congr (fun y => by ring) a
      rw [this]
      exact (dist_has hr hx hl).2
    · exact .bin hl hr ⟨hx, .right⟩

/-- The types inferred are those of the values. -/
theorem C97_rank (ρ : ℕ → Value) (rk : ℕ → ℕ) (hk : ∀ i, rk i = (ρ i).rank) (e : Ex) (v : Value) (h : Has ρ e v) :
    ∀ n, rank rk e = some n → v.rank = n := by
  have hm : ∀ (f : ℚ → ℚ) (a : Value), (a.map f).rank = a.rank := fun f a => by cases a <;> rfl
  have hz : ∀ {f : ℚ → ℚ → ℚ} {a b c : Value}, Zip f a b c → a.rank = b.rank ∧ c.rank = a.rank := by
    intro f a b c h; cases h <;> exact ⟨rfl, rfl⟩
  have he : ∀ {f : ℚ → ℚ → ℚ} {a b c : Value} {n : ℕ}, Elem f a b c →
      (if a.rank = 0 then some b.rank else if b.rank = 0 then some a.rank else if a.rank = b.rank then some a.rank
        else none) = some n → c.rank = n := by
    intro f a b c n h hn
    cases h with
    | zip h =>
      obtain ⟨h1, h2⟩ := hz h
      rw [h2]
      split at hn
      · injection hn with hn; omega
      split at hn
      · injection hn
      · injection hn
    | left => rw [hm]; simpa [Value.rank] using hn
    | right =>
      rw [hm]
      split at hn
      · rename_i h0
        rw [h0]
        simpa [Value.rank] using hn
      · simpa [Value.rank] using hn
  induction h with
  | leaf => intro n hn; simp only [rank] at hn; injection hn with hn; rw [← hn, hk]
  | neg _ ih => intro n hn; rw [hm]; exact ih n hn
  | @bin o l r a b c _ _ h ihl ihr =>
    intro n hn
    simp only [rank] at hn
    cases hl : rank rk l with
    | none => rw [hl] at hn; cases hn
    | some p =>
      cases hr : rank rk r with
      | none => rw [hl, hr] at hn; cases hn
      | some q =>
        rw [hl, hr] at hn
        have hn : inferBin o p q = some n := hn
        have e1 := ihl p hl
        have e2 := ihr q hr
        subst e1; subst e2
        cases o with
        | add | sub =>
          obtain ⟨h1, h2⟩ := hz h
          simp only [inferBin, if_pos h1] at hn
          injection hn with hn
          rw [h2, hn]
        | addEW | subEW | mulEW => exact he h hn
        | divEW => exact he h.2 hn
        | mul =>
          cases h with
          | @left x b => rw [hm]; cases b <;> · injection hn
          | @right a y => rw [hm]; cases a <;> first | injection hn | cases hn
          | dot | vecmat | matvec | matmat => injection hn
        | div =>
          obtain ⟨x, rfl, -, rfl⟩ := h
          rw [hm]
          cases a <;> · injection hn

/-! ## What goes wrong -/

/-- `(x / (y + z)) * w` becomes `x / (y / w + z / w)`. -/
def C97_quotient : Ex := .bin .mul (.bin .div (.leaf 0) (.bin .add (.leaf 1) (.leaf 2))) (.leaf 3)

example : pass .mul C97_quotient =
    .bin .div (.leaf 0) (.bin .add (.bin .div (.leaf 1) (.leaf 3)) (.bin .div (.leaf 2) (.leaf 3))) := by decide

/-- For `w = 0` the product is 0, and the new expression has no value. -/
theorem C97_zero_false : ∃ ρ : ℕ → Value, (∀ i, ∃ x, ρ i = .num x) ∧ Has ρ C97_quotient (.num 0) ∧
    ∀ v, ¬ Has ρ (pass .mul C97_quotient) v := by
  refine ⟨fun i => .num (if i = 3 then 0 else 1), fun i => ⟨_, rfl⟩, ?_, ?_⟩
  · have h1 : Has (fun i => .num (if i = 3 then 0 else 1)) (.bin .add (.leaf 1) (.leaf 2)) (.num 2) := by
      have : (.num 2 : Value) = .num ((if (1 : ℕ) = 3 then 0 else 1) + if (2 : ℕ) = 3 then 0 else 1) := by norm_num
      rw [this]
      exact .bin .leaf .leaf .num
    have h2 : Has (fun i => .num (if i = 3 then 0 else 1)) (.bin .div (.leaf 0) (.bin .add (.leaf 1) (.leaf 2))) (.num (1 / 2)) :=
      .bin .leaf h1 ⟨2, rfl, by norm_num, by norm_num [Value.map]⟩
    have : (.num 0 : Value) = Value.map (fun x => x * if (3 : ℕ) = 3 then 0 else 1) (.num (1 / 2)) := by
      norm_num [Value.map]
    rw [this]
    exact .bin h2 .leaf .right
  · intro v h
    cases h with
    | bin _ h _ =>
      cases h with
      | bin h _ _ =>
        cases h with
        | bin _ hr h =>
          obtain ⟨x, rfl, hx, -⟩ := h
          cases hr
          exact hx (by simp)

theorem C97_full_false : ¬ C97_full := by
  intro h
  obtain ⟨ρ, hρ, h1, h2⟩ := C97_zero_false
  refine h2 _ (h .mul (.inr (.inl rfl)) ρ (fun _ => 0) (fun i => ?_) C97_quotient 0 _ (by decide) h1).2
  obtain ⟨x, hx⟩ := hρ i
  rw [hx]
  rfl

/-- `a * (b + c)`, which becomes `b * a + c * a`. -/
def C97_product : Ex := .bin .mul (.leaf 0) (.bin .add (.leaf 1) (.leaf 2))

example : pass .mul C97_product = .bin .add (.bin .mul (.leaf 1) (.leaf 0)) (.bin .mul (.leaf 2) (.leaf 0)) := by decide

/-- For a row and a column, the result is a matrix with four elements instead of one. -/
theorem C97_matrix_false : ∃ (ρ : ℕ → Value) (rk : ℕ → ℕ) (v : Value), (∀ i, rk i = (ρ i).rank) ∧
    rank rk C97_product = some 2 ∧ Has ρ C97_product v ∧ ¬ Has ρ (pass .mul C97_product) v := by
  refine ⟨fun i => if i = 0 then .mat 1 2 (fun _ _ => 1) else .mat 2 1 (fun _ _ => 1), fun _ => 2, _, fun i => ?_, by decide,
    .bin .leaf (.bin .leaf .leaf .mat) .matmat, fun h => ?_⟩
  · by_cases hi : i = 0 <;> simp [hi, Value.rank]
  · cases h with
    | bin hl _ h =>
      cases hl with
      | bin h1 h2 h3 =>
        cases h1
        cases h2
        cases h3
        cases h

/-- For a number and arrays the value is right, but there is no type for the product of an array and a number. -/
theorem C97_type_false : ∃ rk : ℕ → ℕ, rank rk C97_product = some 1 ∧ rank rk (pass .mul C97_product) = none :=
  ⟨fun i => if i = 0 then 0 else 1, by decide, by decide⟩

/-- `(x ./ (y + z)) / w` becomes `x ./ (y * w + z * w)`, which has no type for arrays `y` and `z`. -/
theorem C97_div_type_false : ∃ (rk : ℕ → ℕ) (e : Ex), rank rk e = some 1 ∧ rank rk (pass .div e) = none :=
  ⟨fun i => if i = 1 ∨ i = 2 then 1 else 0,
    .bin .div (.bin .divEW (.leaf 0) (.bin .add (.leaf 1) (.leaf 2))) (.leaf 3), by decide, by decide⟩

/-- The element-wise product, for which there is no pass: `(a + b) .* c` becomes `a * c + b * c`, a number if `a`, `b` and `c`
are vectors. -/
theorem C97_mulEW_false : ∃ (ρ : ℕ → Value) (e : Ex) (v : Value), Has ρ e v ∧ ¬ Has ρ (distribute .mulEW e) v := by
  refine ⟨fun _ => .vec 1 fun _ => 1, .bin .mulEW (.bin .add (.leaf 0) (.leaf 1)) (.leaf 2), _,
    .bin (.bin .leaf .leaf .vec) .leaf (.zip .vec), fun h => ?_⟩
  simp only [distribute, Ex.isOp, if_true, distMul] at h
  cases h with
  | bin hl _ h =>
    cases hl with
    | bin h1 h2 h3 =>
      cases h1
      cases h2
      cases h3
      cases h

/-! ## Expressions that the theorems apply to -/

/-- `(a + b) ./ c` of two vectors and a number; the type inferred is that of the value. -/
example : Has (fun i => if i = 2 then .num 2 else .vec 2 fun _ => 3) (.bin .add (.leaf 0) (.leaf 1))
      (.vec 2 fun _ => 3 + 3) ∧
    distribute .divEW (.bin .divEW (.bin .add (.leaf 0) (.leaf 1)) (.leaf 2)) =
      .bin .add (.bin .div (.leaf 0) (.leaf 2)) (.bin .div (.leaf 1) (.leaf 2)) ∧
    rank (fun i => if i = 2 then 0 else 1) (.bin .divEW (.bin .add (.leaf 0) (.leaf 1)) (.leaf 2)) = some 1 :=
  ⟨.bin .leaf .leaf .vec, by decide, by decide⟩

/-- `-(a * (b + c))` for matrices becomes `a * (-b + -c)`. -/
example : pass .neg (.neg C97_product) =
    .bin .mul (.leaf 0) (.bin .add (.neg (.leaf 1)) (.neg (.leaf 2))) := by decide

/-- `((a + b) * c - d) / e` becomes `(a / e + b / e) * c - d / e`. -/
def C97_sum : Ex :=
  .bin .div (.bin .sub (.bin .mul (.bin .add (.leaf 0) (.leaf 1)) (.leaf 2)) (.leaf 3)) (.leaf 4)

example : pass .div C97_sum = .bin .sub (.bin .mul (.bin .add (.bin .div (.leaf 0) (.leaf 4)) (.bin .div (.leaf 1) (.leaf 4)))
    (.leaf 2)) (.bin .div (.leaf 3) (.leaf 4)) := by decide

theorem C97_sum_value : Has (fun i => .num (i + 1)) C97_sum (.num (1 : ℚ)) := by
  have h1 : Has (fun i => .num (i + 1)) (.bin .add (.leaf 0) (.leaf 1)) (.num 3) := by
    have : (.num 3 : Value) = .num (((0 : ℕ) + 1 : ℚ) + ((1 : ℕ) + 1 : ℚ)) := by norm_num
    rw [this]
    exact .bin .leaf .leaf .num
  have h2 : Has (fun i => .num (i + 1)) (.bin .mul (.bin .add (.leaf 0) (.leaf 1)) (.leaf 2)) (.num 9) := by
    have : (.num 9 : Value) = Value.map (fun x => x * ((2 : ℕ) + 1 : ℚ)) (.num 3) := by norm_num [Value.map]
    rw [this]
    exact .bin h1 .leaf .right
  have h3 : Has (fun i => .num (i + 1)) (.bin .sub (.bin .mul (.bin .add (.leaf 0) (.leaf 1)) (.leaf 2)) (.leaf 3)) (.num 5) := by
    have : (.num 5 : Value) = .num (9 - ((3 : ℕ) + 1 : ℚ)) := by norm_num
    rw [this]
    exact .bin h2 .leaf .num
  exact .bin h3 .leaf ⟨((4 : ℕ) + 1 : ℚ), rfl, by norm_num, by norm_num [Value.map]⟩

example : Has (fun i => .num (i + 1)) (pass .div C97_sum) (.num 1) := C97_div_partial _ _ _ C97_sum_value

/-- The product in it is distributed too. -/
example : pass .mul C97_sum = .bin .div (.bin .sub (.bin .add (.bin .mul (.leaf 0) (.leaf 2)) (.bin .mul (.leaf 1) (.leaf 2)))
    (.leaf 3)) (.leaf 4) := by decide

example : Has (fun i => .num (i + 1)) (pass .mul C97_sum) (.num 1) :=
  (C97_mul_partial _ (fun i => ⟨_, rfl⟩) (fun _ => 0) (fun _ => rfl) _ (by simp [C97_sum, NoQuotient, Ex.isOp]) _ C97_sum_value).2.2

/-- A number and vectors. -/
example : Has (fun i => if i = 0 then .num 2 else .vec 2 fun j => j) (distribute .mul C97_product)
    ((Value.vec 2 fun j => (j : ℚ) + j).map fun y => 2 * y) :=
  C97_factor_partial _ _ _ _ _ _ .leaf (.bin .leaf .leaf .vec) .left ⟨2, by norm_num, by simp [Ex.isOp]⟩

end Marco.Props
