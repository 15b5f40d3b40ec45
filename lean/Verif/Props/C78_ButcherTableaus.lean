import Verif.Lemmas.ButcherOrder

/-!
# C78: the Butcher tableaus have the order of their methods

The methods that can be chosen as solver are known with their order (Euler 1; midpoint, Heun,
Ralston 2; Kutta 4; for the methods with an error estimate also the order of the second solution:
Heun-Euler 2(1), Bogacki-Shampine 3(2), Fehlberg 5(4), Cash-Karp 5(4), Dormand-Prince 5(4)). The
claim is that the coefficients in the code satisfy the conditions for this order, for all rooted
trees, and that the nodes are the sums of the rows.

This is false: two coefficients of the method of Cash and Karp are wrong (250/521 for 250/621 and
13535/55296 for 13525/55296), so that the method has not even order 1: it does not integrate `x' = 1`.
It holds for all the others. The consequences of the order, for polynomial right-hand sides and for
linear systems, are proved in general.
-/

namespace Marco.Props
open Marco.Spec.RK Marco.RK

/-- The coefficients of a tableau. -/
def C78_A (t : Tableau) : Fin t.rows → Fin t.rows → ℚ := fun i j => t.getCoefficient (i + 1) (j + 1)
/-- The weights. -/
def C78_b (t : Tableau) : Fin t.rows → ℚ := fun i => t.getWeight (i + 1)
/-- The weights for the error estimate. -/
def C78_b' (t : Tableau) : Fin t.rows → ℚ := fun i => t.getAdaptiveWeight (i + 1)
/-- The nodes. -/
def C78_c (t : Tableau) : Fin t.rows → ℚ := fun i => t.getNode (i + 1)

/-- The variants and the orders of the methods from the literature, the second one for the methods
with an error estimate. -/
def C78_orders : List (String × ℕ × Option ℕ) :=
  [("euler-forward", 1, none), ("rk4", 4, none), ("midpoint", 2, none), ("heun", 2, none),
   ("ralston", 2, none), ("heun-euler", 2, some 1), ("bogacki-shampine", 3, some 2),
   ("fehlberg", 5, some 4), ("cash-karp", 5, some 4), ("dormand-prince", 5, some 4),
   ("euler-backward", 1, none)]

/-- The tableau is square, has the orders, and its nodes are the sums of the rows; it has weights
for an error estimate exactly when a second order is given. -/
def C78_Correct (t : Tableau) (p : ℕ) (q : Option ℕ) : Prop :=
  t.columns = t.rows ∧ RowSums (C78_A t) (C78_c t) ∧ HasOrder (C78_A t) (C78_b t) p ∧
    t.isAdaptive = q.isSome ∧ ∀ q', q = some q' → HasOrder (C78_A t) (C78_b' t) q'

/-- The claim. -/
def C78_full : Prop := ∀ v p q, (v, p, q) ∈ C78_orders → C78_Correct (tableauOf v) p q

theorem C78_order_of_upTo (n : ℕ) (A : Fin n → Fin n → ℚ) (b : Fin n → ℚ) (p : ℕ)
    (h : ∀ t ∈ Tree.upTo p, ∑ i, b i * stageWeight A t i = 1 / t.density) : HasOrder A b p :=
  fun t ht => h t (Tree.mem_upTo p t ht)

theorem C78_correct (t : Tableau) (p : ℕ) (q : Option ℕ) (hc : t.columns = t.rows)
    (hr : ∀ i, ∑ j, C78_A t i j = C78_c t i)
    (ho : ∀ u ∈ Tree.upTo p, ∑ i, C78_b t i * stageWeight (C78_A t) u i = 1 / u.density)
    (ha : t.isAdaptive = q.isSome)
    (hq : ∀ u ∈ Tree.upTo (q.getD 0),
      ∑ i, C78_b' t i * stageWeight (C78_A t) u i = 1 / u.density) : C78_Correct t p q :=
  ⟨hc, hr, C78_order_of_upTo _ _ _ _ ho, ha, fun q' hq' => by
    subst hq'; exact C78_order_of_upTo _ _ _ _ hq⟩

/-- All the variants but "cash-karp" have the orders of the literature. -/
theorem C78_orders_partial (v : String) (p : ℕ) (q : Option ℕ) (h : (v, p, q) ∈ C78_orders)
    (hv : v ≠ "cash-karp") : C78_Correct (tableauOf v) p q := by
  simp only [C78_orders, List.mem_cons, Prod.mk.injEq, List.not_mem_nil, or_false] at h
  rcases h with ⟨rfl, rfl, rfl⟩ | ⟨rfl, rfl, rfl⟩ | ⟨rfl, rfl, rfl⟩ | ⟨rfl, rfl, rfl⟩ |
    ⟨rfl, rfl, rfl⟩ | ⟨rfl, rfl, rfl⟩ | ⟨rfl, rfl, rfl⟩ | ⟨rfl, rfl, rfl⟩ | ⟨rfl, rfl, rfl⟩ |
    ⟨rfl, rfl, rfl⟩ | ⟨rfl, rfl, rfl⟩
  · exact C78_correct eulerForward _ _ rfl (by decide +kernel) (by decide +kernel) (by decide +kernel)
      (by decide +kernel)
  · exact C78_correct rk4 _ _ rfl (by decide +kernel) (by decide +kernel) (by decide +kernel)
      (by decide +kernel)
  · exact C78_correct midpoint _ _ rfl (by decide +kernel) (by decide +kernel) (by decide +kernel)
      (by decide +kernel)
  · exact C78_correct heun _ _ rfl (by decide +kernel) (by decide +kernel) (by decide +kernel)
      (by decide +kernel)
  · exact C78_correct ralston _ _ rfl (by decide +kernel) (by decide +kernel) (by decide +kernel)
      (by decide +kernel)
  · exact C78_correct heunEuler _ _ rfl (by decide +kernel) (by decide +kernel) (by decide +kernel)
      (by decide +kernel)
  · exact C78_correct bogackiShampine _ _ rfl (by decide +kernel) (by decide +kernel)
      (by decide +kernel) (by decide +kernel)
  · exact C78_correct fehlberg _ _ rfl (by decide +kernel) (by decide +kernel)
      (by decide +kernel) (by decide +kernel)
  · exact absurd rfl hv
  · exact C78_correct dormandPrince _ _ rfl (by decide +kernel) (by decide +kernel)
      (by decide +kernel) (by decide +kernel)
  · exact C78_correct eulerBackward _ _ rfl (by decide +kernel) (by decide +kernel)
      (by decide +kernel) (by decide +kernel)

/-- The midpoint formula has order 2 for every parameter, not only for the three that are used. -/
theorem C78_genericMidPoint (alpha : ℚ) (h : alpha ≠ 0) :
    C78_Correct (genericMidPoint alpha) 2 none := by
  have hA : ∀ i j : Fin 2, C78_A (genericMidPoint alpha) i j = ![![0, 0], ![alpha, 0]] i j := by
    intro i j; fin_cases i <;> fin_cases j <;> rfl
  have hb : ∀ i : Fin 2, C78_b (genericMidPoint alpha) i
      = ![1 - 1 / (2 * alpha), 1 / (2 * alpha)] i := by
    intro i; fin_cases i <;> rfl
  have hc : ∀ i : Fin 2, C78_c (genericMidPoint alpha) i = ![0, alpha] i := by
    intro i; fin_cases i <;> rfl
  refine C78_correct _ _ _ rfl ?_ ?_ (by simp [Tableau.isAdaptive, genericMidPoint]) ?_
  · intro (i : Fin 2)
    rw [hc i]
    refine (Fin.sum_univ_two (fun j : Fin 2 => C78_A (genericMidPoint alpha) i j)).trans ?_
    rw [hA, hA]
    fin_cases i <;> simp
  · intro u hu
    have : u = .dot ∨ u = .graft .dot .dot := by
      revert hu
      simp [Tree.upTo, List.filter, Tree.order]
    rcases this with rfl | rfl
    · refine (Fin.sum_univ_two (fun i : Fin 2 => C78_b (genericMidPoint alpha) i *
        stageWeight (C78_A (genericMidPoint alpha)) .dot i)).trans ?_
      rw [hb, hb]
      simp [stageWeight, Tree.density]
    · have hs : ∀ i : Fin 2, ∑ j, C78_A (genericMidPoint alpha) i j
          * stageWeight (C78_A (genericMidPoint alpha)) .dot j = ![0, alpha] i := by
        intro i
        refine (Fin.sum_univ_two (fun j : Fin 2 => C78_A (genericMidPoint alpha) i j *
          stageWeight (C78_A (genericMidPoint alpha)) .dot j)).trans ?_
        rw [hA, hA]
        fin_cases i <;> simp [stageWeight]
      refine (Fin.sum_univ_two (fun i : Fin 2 => C78_b (genericMidPoint alpha) i *
        stageWeight (C78_A (genericMidPoint alpha)) (.graft .dot .dot) i)).trans ?_
      simp only [stageWeight, Tree.density, Tree.order]
      have h0 := hs 0
      have h1 := hs 1
      simp only [stageWeight] at h0 h1
      rw [hb, hb, h0, h1]
      simp
      field_simp
      norm_num
  · intro u hu
    simp [Tree.upTo] at hu

/-- The methods of order 2 are those of their names: one evaluation in the middle of the step; the
mean of the slopes at the two ends; weights 1/4 and 3/4 with the node 2/3. -/
theorem C78_secondOrder :
    (tableauOf "midpoint").nodes = [0, 1/2] ∧ (tableauOf "midpoint").weights = [0, 1] ∧
    (tableauOf "heun").nodes = [0, 1] ∧ (tableauOf "heun").weights = [1/2, 1/2] ∧
    (tableauOf "ralston").nodes = [0, 2/3] ∧ (tableauOf "ralston").weights = [1/4, 3/4] := by
  decide +kernel

/-- The weights of "cash-karp" do not sum to 1: the method has not even order 1, and neither has the
second solution, used for the error estimate. -/
theorem C78_cashKarp_false :
    ¬ HasOrder (C78_A (tableauOf "cash-karp")) (C78_b (tableauOf "cash-karp")) 1 ∧
    ¬ HasOrder (C78_A (tableauOf "cash-karp")) (C78_b' (tableauOf "cash-karp")) 1 := by
  constructor
  · intro h
    have := h .dot (by decide)
    revert this
    decide +kernel
  · intro h
    have := h .dot (by decide)
    revert this
    decide +kernel

/-- In terms of the equation: for `x' = 1` each step of "cash-karp" gives a wrong value, whatever
its size. -/
theorem C78_cashKarp_wrong (t x h next : ℚ) (k : Fin (tableauOf "cash-karp").rows → ℚ) (hh : h ≠ 0)
    (hs : IsStep (C78_A (tableauOf "cash-karp")) (C78_b (tableauOf "cash-karp"))
      (C78_c (tableauOf "cash-karp")) (fun _ _ => (1 : ℚ)) t x h k next) : next ≠ x + h := by
  obtain ⟨hk, hn⟩ := hs
  have hs : ∑ i, C78_b (tableauOf "cash-karp") i ≠ 1 := by decide +kernel
  intro he
  rw [hn] at he
  have h1 := add_left_cancel he
  simp only [hk, smul_eq_mul, mul_one, Rat.cast_id] at h1
  exact hs (mul_left_cancel₀ hh (by rw [h1, mul_one]))

/-- The claim is false. -/
theorem C78_full_false : ¬ C78_full := by
  intro h
  have := (h "cash-karp" 5 (some 4) (by decide)).2.2.1
  exact C78_cashKarp_false.1 fun t ht => this t (by omega)

/-- What holds for "cash-karp": the coefficients and the nodes are right, and with the two weights
of the literature the orders are 5 and 4. -/
theorem C78_cashKarp_partial : C78_Correct
    { tableauOf "cash-karp" with
      weights := [37/378, 0, 250/621, 125/594, 0, 512/1771]
      adaptiveWeights := [2825/27648, 0, 18575/48384, 13525/55296, 277/14336, 1/4] } 5 (some 4) :=
  C78_correct _ _ _ rfl (by decide +kernel) (by decide +kernel) (by decide +kernel)
    (by decide +kernel)

/-- The second solution of each method with an error estimate does not have the order of the first
one, so that the difference of the two estimates the error of the second. -/
theorem C78_lowerOrder (v : String) (p q : ℕ) (h : (v, p, some q) ∈ C78_orders) :
    ¬ HasOrder (C78_A (tableauOf v)) (C78_b' (tableauOf v)) p := by
  have key : ∀ (t : Tableau), (∃ u ∈ Tree.upTo p, u.order ≤ p ∧
      ∑ i, C78_b' t i * stageWeight (C78_A t) u i ≠ 1 / u.density) →
      ¬ HasOrder (C78_A t) (C78_b' t) p := by
    rintro t ⟨u, -, h1, h2⟩ h3
    exact h2 (h3 u h1)
  simp only [C78_orders, List.mem_cons, Prod.mk.injEq, List.not_mem_nil, or_false] at h
  rcases h with ⟨rfl, rfl, h⟩ | ⟨rfl, rfl, h⟩ | ⟨rfl, rfl, h⟩ | ⟨rfl, rfl, h⟩ |
    ⟨rfl, rfl, h⟩ | ⟨rfl, rfl, h⟩ | ⟨rfl, rfl, h⟩ | ⟨rfl, rfl, h⟩ | ⟨rfl, rfl, h⟩ |
    ⟨rfl, rfl, h⟩ | ⟨rfl, rfl, h⟩
  · cases h
  · cases h
  · cases h
  · cases h
  · cases h
  · exact key heunEuler (by decide +kernel)
  · exact key bogackiShampine (by decide +kernel)
  · exact key fehlberg (by decide +kernel)
  · exact key cashKarp (by decide +kernel)
  · exact key dormandPrince (by decide +kernel)
  · cases h

/-- What the order means for right-hand sides that depend only on the time: the step is exact for
polynomials of degree below the order. `G` is the integral. -/
theorem C78_polynomial_partial {K : Type*} [Field K] [CharZero K] (v : String) (p : ℕ)
    (q : Option ℕ) (hv : (v, p, q) ∈ C78_orders) (hck : v ≠ "cash-karp") (G : Polynomial K)
    (hG : G.natDegree ≤ p) (t x h next : K) (k : Fin (tableauOf v).rows → K)
    (hs : IsStep (C78_A (tableauOf v)) (C78_b (tableauOf v)) (C78_c (tableauOf v))
      (fun t _ => (Polynomial.derivative G).eval t) t x h k next) :
    next = x + (G.eval (t + h) - G.eval t) := by
  obtain ⟨-, hr, ho, -⟩ := C78_orders_partial v p q hv hck
  obtain ⟨hk, hn⟩ := hs
  have := quadrature_zero (K := K) ho hr (Polynomial.taylor t G)
    (by rw [Polynomial.natDegree_taylor]; exact hG) h
  rw [hn]
  congr 1
  have hd : Polynomial.derivative (Polynomial.taylor t G)
      = Polynomial.taylor t (Polynomial.derivative G) := by
    rw [Polynomial.taylor_apply, Polynomial.taylor_apply, Polynomial.derivative_comp]
    simp
  rw [hd] at this
  simp only [Polynomial.taylor_eval, zero_add] at this
  simp only [smul_eq_mul, hk]
  rw [add_comm t h, ← this]
  refine congrArg _ (Finset.sum_congr rfl fun i _ => ?_)
  rw [add_comm t]

/-- What the order means for linear systems `x' = L x`, of any dimension: the step agrees with the
exponential series up to the power `p` of the step size. -/
theorem C78_linear_partial {K V : Type*} [Field K] [CharZero K] [AddCommGroup V] [Module K V]
    (v : String) (p : ℕ) (q : Option ℕ) (hv : (v, p, q) ∈ C78_orders) (hck : v ≠ "cash-karp")
    (L : V →ₗ[K] V) (t h : K) (x next : V) (k : Fin (tableauOf v).rows → V)
    (hs : IsStep (C78_A (tableauOf v)) (C78_b (tableauOf v)) (C78_c (tableauOf v))
      (fun _ x => L x) t x h k next) :
    ∃ r : V, next = (∑ m ∈ Finset.range (p + 1), (h ^ m / (m.factorial : K)) • (L ^ m) x) +
      h ^ (p + 1) • (L ^ p) r := by
  obtain ⟨-, hr, ho, -⟩ := C78_orders_partial v p q hv hck
  obtain ⟨hk, hn⟩ := hs
  have he := linear_expansion L x h k hk p
  refine ⟨∑ i, (C78_b (tableauOf v) i : K) • applyA (K := K) (C78_A (tableauOf v)) p k i, ?_⟩
  rw [hn, Finset.sum_range_succ']
  simp only [pow_zero, Nat.factorial_zero, Nat.cast_one, div_one, one_smul, Module.End.one_apply]
  rw [add_comm _ x, add_assoc]
  congr 1
  rw [Finset.sum_congr rfl fun i _ => congrArg _ (he i)]
  simp only [smul_add, Finset.sum_add_distrib, Finset.smul_sum]
  congr 1
  · rw [Finset.sum_comm]
    refine Finset.sum_congr rfl fun m hm => ?_
    have hs := sum_tall ho (Finset.mem_range.mp hm)
    have hs' : ∑ i, (C78_b (tableauOf v) i : K) *
        (stageWeight (C78_A (tableauOf v)) (Tree.tall m) i : K) = 1 / ((m + 1).factorial : K) := by
      have := congrArg (Rat.cast (K := K)) hs
      push_cast at this ⊢
      exact this
    simp only [smul_smul]
    rw [← Finset.sum_smul]
    congr 1
    rw [div_eq_mul_one_div, ← hs', Finset.mul_sum]
    exact Finset.sum_congr rfl fun i _ => by rw [pow_succ]; ring
  · rw [map_sum, Finset.smul_sum]
    refine Finset.sum_congr rfl fun i _ => ?_
    rw [map_smul, smul_smul, smul_smul, smul_smul, pow_succ]
    congr 1
    ring

/-- A step of "rk4" for `x' = 4 t^3` from 1 at time 1 with step 2, with its slopes. -/
example : IsStep (C78_A (tableauOf "rk4")) (C78_b (tableauOf "rk4")) (C78_c (tableauOf "rk4"))
    (fun t _ => 4 * t ^ 3) (1 : ℚ) (1 : ℚ) 2 (fun i => [4, 32, 32, 108].getD i 0) 81 := by
  refine ⟨?_, ?_⟩ <;> decide +kernel

/-- `81 = 1 + (3 ^ 4 - 1 ^ 4)`, the integral. -/
example : (81 : ℚ) = 1 + ((1 + 2) ^ 4 - 1 ^ 4) := by norm_num

/-- The oscillator `x' = y, y' = -x` with "heun" and step 1: one step from (1, 0). -/
example : IsStep (C78_A (tableauOf "heun")) (C78_b (tableauOf "heun")) (C78_c (tableauOf "heun"))
    (fun _ x => (x.2, -x.1)) (0 : ℚ) ((1, 0) : ℚ × ℚ) 1 (fun i => [(0, -1), (-1, -1)].getD i 0) (1/2, -1) := by
  refine ⟨?_, ?_⟩ <;> decide +kernel

/-- A step of "cash-karp" for `x' = 1`. -/
example : IsStep (C78_A (tableauOf "cash-karp")) (C78_b (tableauOf "cash-karp"))
    (C78_c (tableauOf "cash-karp")) (fun _ _ => (1 : ℚ)) (0 : ℚ) (0 : ℚ) 1 (fun _ => 1)
    (∑ i, C78_b (tableauOf "cash-karp") i) := by
  refine ⟨fun _ => rfl, ?_⟩; decide +kernel

end Marco.Props
