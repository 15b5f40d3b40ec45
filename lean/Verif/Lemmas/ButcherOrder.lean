import Verif.Spec.RungeKutta
import Verif.Model.ButcherTableau
import Mathlib.Algebra.Polynomial.Taylor
import Mathlib.Algebra.Module.LinearMap.End
import Mathlib.Tactic.FieldSimp
import Mathlib.Tactic.Ring
import Mathlib.Tactic.Linarith

/-! Helper lemmas for C78. -/

namespace Marco.Spec.RK

namespace Tree

theorem order_pos : ∀ t : Tree, 0 < t.order
  | dot => Nat.one_pos
  | graft t _ => Nat.add_pos_left (order_pos t) _

/-- The trees with at most `n` nodes. -/
def upTo : ℕ → List Tree
  | 0 => []
  | n + 1 =>
    (dot :: (upTo n).flatMap fun t => (upTo n).map fun u => graft t u).filter
      fun t => t.order ≤ n + 1

theorem mem_upTo : ∀ (n : ℕ) (t : Tree), t.order ≤ n → t ∈ upTo n
  | 0, t, h => absurd (order_pos t) (by omega)
  | n + 1, dot, h => by simp [upTo, order]
  | n + 1, graft t u, h => by
    have ht := order_pos t
    have hu := order_pos u
    simp only [order] at h
    have h1 := mem_upTo n t (by omega)
    have h2 := mem_upTo n u (by omega)
    simp only [upTo, List.mem_filter, List.mem_cons, List.mem_flatMap, List.mem_map,
      order]
    exact ⟨Or.inr ⟨t, h1, u, h2, rfl⟩, decide_eq_true h⟩

/-- One root with `n` children without children. -/
def bush : ℕ → Tree
  | 0 => dot
  | n + 1 => graft (bush n) dot

theorem bush_order : ∀ n, (bush n).order = n + 1
  | 0 => rfl
  | n + 1 => by simp [bush, order, bush_order n]

theorem bush_density : ∀ n, (bush n).density = n + 1
  | 0 => by simp [bush, density]
  | n + 1 => by
    have : (n : ℚ) + 1 ≠ 0 := by positivity
    simp only [bush, density, bush_density n, bush_order n, order]
    push_cast
    field_simp

/-- A path with `n` edges. -/
def tall : ℕ → Tree
  | 0 => dot
  | n + 1 => graft dot (tall n)

theorem tall_order : ∀ n, (tall n).order = n + 1
  | 0 => rfl
  | n + 1 => by simp [tall, order, tall_order n]; omega

theorem tall_density : ∀ n, (tall n).density = (n + 1).factorial
  | 0 => by simp [tall, density]
  | n + 1 => by
    simp only [tall, density, tall_density n, tall_order n, order]
    rw [Nat.factorial_succ (n + 1)]
    push_cast
    ring

end Tree

open _root_.Marco.Spec.RK.Tree

variable {n : ℕ} {A : Fin n → Fin n → ℚ} {b c : Fin n → ℚ} {p : ℕ}

theorem stageWeight_bush (hc : RowSums A c) (k : ℕ) (i : Fin n) :
    stageWeight A (bush k) i = c i ^ k := by
  induction k with
  | zero => simp [bush, stageWeight]
  | succ k ih =>
    simp only [bush, stageWeight, ih, mul_one]
    rw [hc i, pow_succ]

theorem sum_bush (ho : HasOrder A b p) (hc : RowSums A c) {k : ℕ} (hk : k < p) :
    ∑ i, b i * c i ^ k = 1 / ((k : ℚ) + 1) := by
  have := ho (bush k) (by rw [bush_order]; omega)
  rw [bush_density] at this
  rw [← this]
  exact Finset.sum_congr rfl fun i _ => by rw [stageWeight_bush hc]

theorem sum_tall (ho : HasOrder A b p) {k : ℕ} (hk : k < p) :
    ∑ i, b i * stageWeight A (tall k) i = 1 / ((k + 1).factorial : ℚ) := by
  have := ho (tall k) (by rw [tall_order]; omega)
  rw [tall_density] at this
  exact this

/-- A quadrature with the weights and the nodes is exact for polynomials of degree below the
order. -/
theorem quadrature_zero {K : Type*} [Field K] [CharZero K] (ho : HasOrder A b p)
    (hc : RowSums A c) (g : Polynomial K) (hg : g.natDegree ≤ p) (h : K) :
    h * ∑ i, (b i : K) * (Polynomial.derivative g).eval ((c i : K) * h) = g.eval h - g.eval 0 := by
  have hd : (Polynomial.derivative g).natDegree < p ∨ p = 0 := by
    rcases Nat.eq_zero_or_pos p with h0 | h0
    · exact Or.inr h0
    · exact Or.inl (lt_of_le_of_lt (Polynomial.natDegree_derivative_le g) (by omega))
  rcases hd with hd | hd
  · have e1 : ∀ i : Fin n, (Polynomial.derivative g).eval ((c i : K) * h)
        = ∑ k ∈ Finset.range p, g.coeff (k + 1) * ((k : K) + 1) * ((c i : K) * h) ^ k := by
      intro i
      rw [Polynomial.eval_eq_sum_range' hd]
      exact Finset.sum_congr rfl fun k _ => by rw [Polynomial.coeff_derivative]
    have e2 : g.eval h - g.eval 0 = ∑ k ∈ Finset.range p, g.coeff (k + 1) * h ^ (k + 1) := by
      rw [Polynomial.eval_eq_sum_range' (Nat.lt_succ_of_le hg),
        Finset.sum_range_succ' _ p, ← Polynomial.coeff_zero_eq_eval_zero]
      simp
    rw [e2]
    simp only [e1, Finset.mul_sum]
    rw [Finset.sum_comm]
    refine Finset.sum_congr rfl fun k hk => ?_
    have hs := sum_bush ho hc (Finset.mem_range.mp hk)
    have hs' : ∑ i, (b i : K) * (c i : K) ^ k = 1 / ((k : K) + 1) := by
      have := congrArg (Rat.cast (K := K)) hs
      push_cast at this
      exact this
    have hk0 : (k : K) + 1 ≠ 0 := by exact_mod_cast Nat.succ_ne_zero k
    calc ∑ i, h * ((b i : K) * (g.coeff (k + 1) * ((k : K) + 1) * ((c i : K) * h) ^ k))
        = g.coeff (k + 1) * ((k : K) + 1) * h ^ (k + 1) * ∑ i, (b i : K) * (c i : K) ^ k := by
          rw [Finset.mul_sum]
          exact Finset.sum_congr rfl fun i _ => by rw [mul_pow, pow_succ]; ring
      _ = g.coeff (k + 1) * h ^ (k + 1) := by
          rw [hs']; field_simp
  · subst hd
    have hg0 : g.natDegree = 0 := by omega
    rw [Polynomial.eq_C_of_natDegree_eq_zero hg0]
    simp

/-- The vector `A ^ m` applied to vectors of a module. -/
def applyA {K V : Type*} [Field K] [AddCommGroup V] [Module K V] (A : Fin n → Fin n → ℚ) :
    ℕ → (Fin n → V) → Fin n → V
  | 0, k => k
  | m + 1, k => fun i => ∑ j, (A i j : K) • applyA (K := K) A m k j

theorem linear_expansion {K V : Type*} [Field K] [CharZero K] [AddCommGroup V] [Module K V]
    (L : V →ₗ[K] V) (x : V) (h : K) (k : Fin n → V)
    (hk : ∀ i, k i = L (x + h • ∑ j, (A i j : K) • k j)) :
    ∀ (m : ℕ) (i : Fin n), k i = (∑ r ∈ Finset.range m,
      (h ^ r * (stageWeight A (tall r) i : K)) • (L ^ (r + 1)) x) +
        (h ^ m) • (L ^ m) (applyA (K := K) A m k i) := by
  intro m
  induction m with
  | zero => intro i; simp [applyA]
  | succ m ih =>
    have hA : ∀ (m : ℕ) (i : Fin n), applyA (K := K) A m k i =
        (stageWeight A (tall m) i : K) • L x + h • L (applyA (K := K) A (m + 1) k i) := by
      intro m
      induction m with
      | zero =>
        intro i
        simp only [applyA, tall, stageWeight, Rat.cast_one, one_smul]
        rw [hk i]
        simp only [map_add, map_smul]
      | succ m ih2 =>
        intro i
        have : applyA (K := K) A (m + 1) k i = ∑ j, (A i j : K) • applyA (K := K) A m k j := rfl
        rw [this]
        simp only [ih2]
        simp only [smul_add, Finset.sum_add_distrib]
        congr 1
        · simp only [tall, stageWeight, one_mul, smul_smul, ← Finset.sum_smul]
          congr 1
          push_cast
          rfl
        · have e : applyA (K := K) A (m + 1 + 1) k i
              = ∑ j, (A i j : K) • applyA (K := K) A (m + 1) k j := rfl
          rw [e, map_sum, Finset.smul_sum]
          exact Finset.sum_congr rfl fun j _ => by rw [map_smul, smul_comm]
    intro i
    rw [Finset.sum_range_succ, ih i, hA m i]
    simp only [map_add, map_smul, smul_add, smul_smul, add_assoc]
    rw [show (L ^ m) (L x) = (L ^ (m + 1)) x by rw [pow_succ]; rfl,
      show (L ^ m) (L (applyA (K := K) A (m + 1) k i)) = (L ^ (m + 1)) (applyA (K := K) A (m + 1) k i)
        by rw [pow_succ]; rfl, pow_succ h m]

end Marco.Spec.RK
