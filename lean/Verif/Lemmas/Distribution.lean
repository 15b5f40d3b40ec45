import Verif.Spec.Distribution
import Mathlib.Algebra.BigOperators.Ring.Finset
import Mathlib.Tactic.Ring
import Mathlib.Tactic.FieldSimp
import Mathlib.Data.Rat.BigOperators

/-! # Lemmas on the distribution of operations -/

namespace Marco.Distr
open Marco.Spec.Distr

/-- The multiples of a value. -/
def scale (k : ℚ) (a : Value) : Value := a.map fun x => x * k

theorem map_comp (f g : ℚ → ℚ) (a : Value) : (a.map f).map g = a.map fun x => g (f x) := by cases a <;> rfl

theorem map_congr {f g : ℚ → ℚ} (h : ∀ x, f x = g x) (a : Value) : a.map f = a.map g := by
  rw [funext h]

theorem scale_zip {f : ℚ → ℚ → ℚ} {k : ℚ} (hf : ∀ x y, f x y * k = f (x * k) (y * k)) {a b c : Value} (h : Zip f a b c) :
    Zip f (scale k a) (scale k b) (scale k c) := by
  cases h <;> simp only [scale, Value.map, hf] <;> constructor

theorem scale_elem {f : ℚ → ℚ → ℚ} {k : ℚ} (hf : ∀ x y, f x y * k = f (x * k) (y * k)) {a b c : Value} (h : Elem f a b c) :
    Elem f (scale k a) (scale k b) (scale k c) := by
  cases h with
  | zip h => exact .zip (scale_zip hf h)
  | @left x b =>
    have : scale k (b.map fun y => f x y) = (scale k b).map fun y => f (x * k) y := by
      unfold scale
      rw [map_comp, map_comp]
      exact map_congr (fun y => hf _ y) b
    rw [this]
    exact .left
  | @right a z =>
    have : scale k (a.map fun y => f y z) = (scale k a).map fun y => f y (z * k) := by
      unfold scale
      rw [map_comp, map_comp]
      exact map_congr (fun y => hf y _) a
    rw [this]
    exact .right

/-- One of the operands is multiplied by `m`, the result by `k`. -/
theorem elem_left {f : ℚ → ℚ → ℚ} {k : ℚ} (hf : ∀ x y, f x y * k = f (x * k) y) {a b c : Value} (h : Elem f a b c) :
    Elem f (scale k a) b (scale k c) := by
  cases h with
  | zip h =>
    refine .zip ?_
    cases h <;> simp only [scale, Value.map, hf] <;> constructor
  | @left x b =>
    have : scale k (b.map fun y => f x y) = b.map fun y => f (x * k) y := by
      unfold scale
      rw [map_comp]
      exact map_congr (fun y => hf _ y) b
    rw [this]
    exact .left
  | @right a z =>
    have : scale k (a.map fun y => f y z) = (scale k a).map fun y => f y z := by
      unfold scale
      rw [map_comp, map_comp]
      exact map_congr (fun y => hf y _) a
    rw [this]
    exact .right

theorem elem_right {f : ℚ → ℚ → ℚ} {k m : ℚ} (hf : ∀ x y, f x y * k = f x (y * m)) {a b c : Value} (h : Elem f a b c) :
    Elem f a (scale m b) (scale k c) := by
  cases h with
  | zip h =>
    refine .zip ?_
    cases h <;> simp only [scale, Value.map, hf] <;> constructor
  | @left x b =>
    have : scale k (b.map fun y => f x y) = (scale m b).map fun y => f x y := by
      unfold scale
      rw [map_comp, map_comp]
      exact map_congr (fun y => hf _ y) b
    rw [this]
    exact .left
  | @right a z =>
    have : scale k (a.map fun y => f y z) = a.map fun y => f y (z * m) := by
      unfold scale
      rw [map_comp]
      exact map_congr (fun y => hf y _) a
    rw [this]
    exact .right

theorem product_left {k : ℚ} {a b c : Value} (h : Product a b c) : Product (scale k a) b (scale k c) := by
  cases h with
  | @left x b =>
    have : scale k (b.map fun y => x * y) = b.map fun y => x * k * y := by
      unfold scale
      rw [map_comp]
      exact map_congr (fun y => by ring) b
    rw [this]
    exact .left
  | @right a y =>
    have : scale k (a.map fun x => x * y) = (scale k a).map fun x => x * y := by
      unfold scale
      rw [map_comp, map_comp]
      exact map_congr (fun y => by ring) a
    rw [this]
    exact .right
  | @dot n v w =>
    have : scale k (.num (∑ i, v i * w i)) = .num (∑ i, v i * k * w i) := by
      simp only [scale, Value.map, Finset.sum_mul]
      congr 1
      exact Finset.sum_congr rfl fun i _ => by ring
    rw [this]
    exact .dot
  | @vecmat m n v a =>
    have : scale k (.vec n fun j => ∑ i, v i * a i j) = .vec n fun j => ∑ i, v i * k * a i j := by
      simp only [scale, Value.map, Finset.sum_mul]
      congr 1
      exact funext fun j => Finset.sum_congr rfl fun i _ => by ring
    rw [this]
    exact .vecmat
  | @matvec m n a v =>
    have : scale k (.vec m fun i => ∑ j, a i j * v j) = .vec m fun i => ∑ j, a i j * k * v j := by
      simp only [scale, Value.map, Finset.sum_mul]
      congr 1
      exact funext fun j => Finset.sum_congr rfl fun i _ => by ring
    rw [this]
    exact .matvec
  | @matmat m l n a b =>
    have : scale k (.mat m n fun i j => ∑ h, a i h * b h j) = .mat m n fun i j => ∑ h, a i h * k * b h j := by
      simp only [scale, Value.map, Finset.sum_mul]
      congr 1
      exact funext fun i => funext fun j => Finset.sum_congr rfl fun i _ => by ring
    rw [this]
    exact .matmat

theorem product_right {k : ℚ} {a b c : Value} (h : Product a b c) : Product a (scale k b) (scale k c) := by
  cases h with
  | @left x b =>
    have : scale k (b.map fun y => x * y) = (scale k b).map fun y => x * y := by
      unfold scale
      rw [map_comp, map_comp]
      exact map_congr (fun y => by ring) b
    rw [this]
    exact .left
  | @right a y =>
    have : scale k (a.map fun x => x * y) = a.map fun x => x * (y * k) := by
      unfold scale
      rw [map_comp]
      exact map_congr (fun y => by ring) a
    rw [this]
    exact .right
  | @dot n v w =>
    have : scale k (.num (∑ i, v i * w i)) = .num (∑ i, v i * (w i * k)) := by
      simp only [scale, Value.map, Finset.sum_mul]
      congr 1
      exact Finset.sum_congr rfl fun i _ => by ring
    rw [this]
    exact .dot
  | @vecmat m n v a =>
    have : scale k (.vec n fun j => ∑ i, v i * a i j) = .vec n fun j => ∑ i, v i * (a i j * k) := by
      simp only [scale, Value.map, Finset.sum_mul]
      congr 1
      exact funext fun j => Finset.sum_congr rfl fun i _ => by ring
    rw [this]
    exact .vecmat
  | @matvec m n a v =>
    have : scale k (.vec m fun i => ∑ j, a i j * v j) = .vec m fun i => ∑ j, a i j * (v j * k) := by
      simp only [scale, Value.map, Finset.sum_mul]
      congr 1
      exact funext fun j => Finset.sum_congr rfl fun i _ => by ring
    rw [this]
    exact .matvec
  | @matmat m l n a b =>
    have : scale k (.mat m n fun i j => ∑ h, a i h * b h j) = .mat m n fun i j => ∑ h, a i h * (b h j * k) := by
      simp only [scale, Value.map, Finset.sum_mul]
      congr 1
      exact funext fun i => funext fun j => Finset.sum_congr rfl fun i _ => by ring
    rw [this]
    exact .matmat

theorem scale_nonZero {k : ℚ} (hk : k ≠ 0) {a : Value} (h : a.NonZero) : (scale k a).NonZero := by
  cases a with
  | num x => exact mul_ne_zero h hk
  | vec n v => exact fun i => mul_ne_zero (h i) hk
  | mat m n a => exact fun i j => mul_ne_zero (h i j) hk

/-- The sums and the differences. -/
def Additive (o : Op) : Prop := o = .add ∨ o = .addEW ∨ o = .sub ∨ o = .subEW

theorem result_sum {o : Op} (ho : Additive o) {k : ℚ} {a b c : Value} (h : Result o a b c) :
    Result o (scale k a) (scale k b) (scale k c) := by
  rcases ho with rfl | rfl | rfl | rfl
  · exact scale_zip (fun x y => by ring) h
  · exact scale_elem (fun x y => by ring) h
  · exact scale_zip (fun x y => by ring) h
  · exact scale_elem (fun x y => by ring) h

theorem result_left {o : Op} (ho : ¬ Additive o) {k : ℚ} {a b c : Value} (h : Result o a b c) :
    Result o (scale k a) b (scale k c) := by
  cases o with
  | add | addEW | sub | subEW => exact absurd (by simp [Additive]) ho
  | mul => exact product_left h
  | mulEW => exact elem_left (fun x y => by ring) h
  | div =>
    obtain ⟨x, rfl, hx, rfl⟩ := h
    refine ⟨x, rfl, hx, ?_⟩
    unfold scale
    rw [map_comp, map_comp]
    exact map_congr (fun y => by ring) a
  | divEW => exact ⟨h.1, elem_left (fun x y => by ring) h.2⟩

theorem result_mul_right {o : Op} (ho : o = .mul ∨ o = .mulEW) {k : ℚ} {a b c : Value} (h : Result o a b c) :
    Result o a (scale k b) (scale k c) := by
  rcases ho with rfl | rfl
  · exact product_right h
  · exact elem_right (fun x y => by ring) h

theorem result_div_right {o : Op} (ho : o = .div ∨ o = .divEW) {k : ℚ} (hk : k ≠ 0) {a b c : Value} (h : Result o a b c) :
    Result o a (scale k⁻¹ b) (scale k c) := by
  rcases ho with rfl | rfl
  · obtain ⟨x, rfl, hx, rfl⟩ := h
    refine ⟨x * k⁻¹, rfl, mul_ne_zero hx (inv_ne_zero hk), ?_⟩
    unfold scale
    rw [map_comp]
    exact map_congr (fun y => by field_simp) a
  · exact ⟨scale_nonZero (inv_ne_zero hk) h.1, elem_right (fun x y => by
      by_cases hy : y = 0
      · simp [hy]
      · field_simp) h.2⟩

theorem neg_eq (a : Value) : (a.map fun x => -x) = scale (-1) a := map_congr (fun x => by ring) a

theorem scale_scale (k m : ℚ) (a : Value) : scale k (scale m a) = scale m (scale k a) := by
  unfold scale
  rw [map_comp, map_comp]
  exact map_congr (fun x => by ring) a

theorem distNeg_has {ρ : ℕ → Value} {e : Ex} {a : Value} (h : Has ρ e a) : Has ρ (distNeg e) (scale (-1) a) := by
  induction h with
  | leaf =>
    rw [← neg_eq]
    exact .neg .leaf
  | @neg e a _ ih =>
    rw [neg_eq a, scale_scale, ← neg_eq]
    exact .neg ih
  | @bin o l r a b c hl hr h ihl ihr =>
    cases o with
    | add => exact .bin ihl ihr (result_sum (.inl rfl) h)
    | addEW => exact .bin ihl ihr (result_sum (.inr (.inl rfl)) h)
    | sub => exact .bin ihl ihr (result_sum (.inr (.inr (.inl rfl))) h)
    | subEW => exact .bin ihl ihr (result_sum (.inr (.inr (.inr rfl))) h)
    | mul | mulEW =>
      simp only [distNeg]
      split
      · exact .bin ihl hr (result_left (by simp [Additive]) h)
      split
      · exact .bin hl ihr (result_mul_right (by simp) h)
      · refine .bin (.neg hl) hr ?_
        rw [neg_eq]
        exact result_left (by simp [Additive]) h
    | div | divEW =>
      simp only [distNeg]
      split
      · exact .bin ihl hr (result_left (by simp [Additive]) h)
      split
      · refine .bin hl ihr ?_
        have := result_div_right (by simp) (k := -1) (by norm_num) h
        norm_num at this
        exact this
      · refine .bin (.neg hl) hr ?_
        rw [neg_eq]
        exact result_left (by simp [Additive]) h

/-- The product with a number. -/
theorem mul_has {ρ : ℕ → Value} {v l : Ex} {x : ℚ} {a : Value} (hv : Has ρ v (.num x)) (h : Has ρ l a) :
    Has ρ (.bin .mul l v) (scale x a) := .bin h hv .right

theorem div_has {ρ : ℕ → Value} {v l : Ex} {x : ℚ} {a : Value} (hv : Has ρ v (.num x)) (hx : x ≠ 0) (h : Has ρ l a) :
    Has ρ (.bin .div l v) (scale x⁻¹ a) := .bin h hv ⟨x, rfl, hx, map_congr (fun y => by ring) a⟩

theorem dist_has {ρ : ℕ → Value} {v : Ex} {x : ℚ} (hv : Has ρ v (.num x)) (hx : x ≠ 0) {e : Ex} {a : Value} (h : Has ρ e a) :
    Has ρ (distMul v e) (scale x a) ∧ Has ρ (distDiv v e) (scale x⁻¹ a) := by
  induction h with
  | leaf =>
    simp only [distMul, distDiv]
    exact ⟨mul_has hv .leaf, div_has hv hx .leaf⟩
  | @neg e a _ ih =>
    rw [neg_eq a, scale_scale, scale_scale x⁻¹, ← neg_eq, ← neg_eq]
    simp only [distMul, distDiv]
    exact ⟨.neg ih.1, .neg ih.2⟩
  | @bin o l r a b c hl hr h ihl ihr =>
    cases o with
    | add | addEW | sub | subEW =>
      simp only [distMul, distDiv]
      exact ⟨.bin ihl.1 ihr.1 (result_sum (by simp [Additive]) h), .bin ihl.2 ihr.2 (result_sum (by simp [Additive]) h)⟩
    | mul | mulEW =>
      simp only [distMul, distDiv]
      split
      · exact ⟨.bin ihl.1 hr (result_left (by simp [Additive]) h), .bin ihl.2 hr (result_left (by simp [Additive]) h)⟩
      split
      · exact ⟨.bin hl ihr.1 (result_mul_right (by simp) h), .bin hl ihr.2 (result_mul_right (by simp) h)⟩
      · exact ⟨.bin (mul_has hv hl) hr (result_left (by simp [Additive]) h),
          .bin (div_has hv hx hl) hr (result_left (by simp [Additive]) h)⟩
    | div | divEW =>
      simp only [distMul, distDiv]
      split
      · exact ⟨.bin ihl.1 hr (result_left (by simp [Additive]) h), .bin ihl.2 hr (result_left (by simp [Additive]) h)⟩
      split
      · refine ⟨.bin hl ihr.2 (result_div_right (by simp) hx h), .bin hl ihr.1 ?_⟩
        have := result_div_right (by simp) (inv_ne_zero hx) h
        rwa [inv_inv] at this
      · exact ⟨.bin (mul_has hv hl) hr (result_left (by simp [Additive]) h),
          .bin (div_has hv hx hl) hr (result_left (by simp [Additive]) h)⟩

/-- Without divisions the factor may be zero. -/
theorem distMul_has {ρ : ℕ → Value} {v : Ex} {x : ℚ} (hv : Has ρ v (.num x)) {e : Ex} {a : Value} (h : Has ρ e a)
    (hq : NoQuotient e) : Has ρ (distMul v e) (scale x a) := by
  induction h with
  | leaf =>
    simp only [distMul]
    exact mul_has hv .leaf
  | @neg e a _ ih =>
    rw [neg_eq a, scale_scale, ← neg_eq]
    simp only [distMul]
    exact .neg (ih hq)
  | @bin o l r a b c hl hr h ihl ihr =>
    obtain ⟨ql, qr, hdiv⟩ := hq
    cases o with
    | add | addEW | sub | subEW =>
      simp only [distMul]
      exact .bin (ihl ql) (ihr qr) (result_sum (by simp [Additive]) h)
    | mul | mulEW =>
      simp only [distMul]
      split
      · exact .bin (ihl ql) hr (result_left (by simp [Additive]) h)
      split
      · exact .bin hl (ihr qr) (result_mul_right (by simp) h)
      · exact .bin (mul_has hv hl) hr (result_left (by simp [Additive]) h)
    | div | divEW =>
      simp only [distMul]
      split
      · exact .bin (ihl ql) hr (result_left (by simp [Additive]) h)
      rename_i hlo
      split
      · rename_i hro
        rw [hdiv (by simp) (by simpa using hlo)] at hro
        cases hro
      · exact .bin (mul_has hv hl) hr (result_left (by simp [Additive]) h)

theorem isOp_distMul (v e : Ex) : (distMul v e).isOp = true := by
  cases e with
  | leaf | neg => simp [distMul, Ex.isOp]
  | bin o l r =>
    cases o <;> simp only [distMul] <;> (repeat' split) <;> rfl

theorem noQuotient_distMul {v : Ex} (hv : NoQuotient v) {e : Ex} (h : NoQuotient e) : NoQuotient (distMul v e) := by
  induction e with
  | leaf i =>
    simp only [distMul, NoQuotient]
    exact ⟨trivial, hv, by simp⟩
  | neg e ih =>
    simp only [distMul, NoQuotient]
    exact ih h
  | bin o l r ihl ihr =>
    obtain ⟨ql, qr, hdiv⟩ := h
    cases o with
    | add | addEW | sub | subEW =>
      simp only [distMul, NoQuotient]
      exact ⟨ihl ql, ihr qr, by simp⟩
    | mul | mulEW =>
      simp only [distMul]
      split
      · exact ⟨ihl ql, qr, by simp⟩
      split
      · exact ⟨ql, ihr qr, by simp⟩
      · exact ⟨⟨ql, hv, by simp⟩, qr, by simp⟩
    | div | divEW =>
      simp only [distMul]
      split
      · refine ⟨ihl ql, qr, fun _ h => ?_⟩
        rw [isOp_distMul] at h
        cases h
      rename_i hlo
      split
      · rename_i hro
        rw [hdiv (by simp) (by simpa using hlo)] at hro
        cases hro
      · exact ⟨⟨ql, hv, by simp⟩, qr, by simp [Ex.isOp]⟩

/-! ## Numbers -/

theorem map_num {f : ℚ → ℚ} {a : Value} : (∃ x, a.map f = .num x) ↔ ∃ x, a = .num x := by
  cases a <;> simp [Value.map]

theorem zip_num {f : ℚ → ℚ → ℚ} {a b c : Value} (h : Zip f a b c) (ha : ∃ x, a = .num x) : ∃ x, c = .num x := by
  obtain ⟨x, rfl⟩ := ha
  cases h
  exact ⟨_, rfl⟩

theorem elem_num {f : ℚ → ℚ → ℚ} {a b c : Value} (h : Elem f a b c) (ha : ∃ x, a = .num x) (hb : ∃ x, b = .num x) :
    ∃ x, c = .num x := by
  cases h with
  | zip h => exact zip_num h ha
  | left => exact map_num.2 hb
  | right => exact map_num.2 ha

theorem has_num {ρ : ℕ → Value} (hρ : ∀ i, ∃ x, ρ i = .num x) {e : Ex} {a : Value} (h : Has ρ e a) : ∃ x, a = .num x := by
  induction h with
  | leaf => exact hρ _
  | neg _ ih => exact map_num.2 ih
  | @bin o l r a b c _ _ h ha hb =>
    cases o with
    | add => exact zip_num h ha
    | sub => exact zip_num h ha
    | addEW | subEW | mulEW => exact elem_num h ha hb
    | mul =>
      cases h with
      | left => exact map_num.2 hb
      | right => exact map_num.2 ha
      | _ => obtain ⟨x, hx⟩ := ha; cases hx
    | div =>
      obtain ⟨x, rfl, -, rfl⟩ := h
      exact map_num.2 ha
    | divEW => exact elem_num h.2 ha hb

theorem product_num {a : Value} {y : ℚ} {c : Value} (h : Product a (.num y) c) : c = scale y a := by
  cases h with
  | left => simp [scale, Value.map]
  | right => rfl

theorem product_num' {x : ℚ} {b c : Value} (h : Product (.num x) b c) : c = scale x b := by
  cases h with
  | left => exact map_congr (fun y => by ring) b
  | right => simp [scale, Value.map, mul_comm]

/-! ## Types -/

theorem distNeg_rank (rk : ℕ → ℕ) (e : Ex) : rank rk (distNeg e) = rank rk e := by
  induction e with
  | leaf => rfl
  | neg e ih => exact ih
  | bin o l r ihl ihr =>
    cases o <;> simp only [distNeg] <;> (repeat' split) <;> simp only [rank, ihl, ihr]

theorem dist_rank {rk : ℕ → ℕ} (h0 : ∀ i, rk i = 0) {v : Ex} (hv : rank rk v = some 0) (e : Ex) :
    rank rk e = some 0 ∧ rank rk (distMul v e) = some 0 ∧ rank rk (distDiv v e) = some 0 := by
  induction e with
  | leaf => simp [rank, distMul, distDiv, hv, h0, inferBin]
  | neg e ih => simpa only [rank, distMul, distDiv] using ih
  | bin o l r ihl ihr =>
    obtain ⟨l1, l2, l3⟩ := ihl
    obtain ⟨r1, r2, r3⟩ := ihr
    cases o <;> simp only [distMul, distDiv] <;> (repeat' split) <;> simp [rank, inferBin, l1, l2, l3, r1, r2, r3, hv]

end Marco.Distr
