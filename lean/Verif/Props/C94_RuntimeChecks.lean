import Verif.Lemmas.RuntimeChecks
import Mathlib.Analysis.SpecialFunctions.Log.Base

/-!
# C94: the checks at run time stop exactly the invalid operations

The checks that are added for the verification at run time hold for some operands if and only if the
operation is valid for them: the elements accessed exist, the shapes fit, the result is defined.
-/

namespace Marco.Props

open Marco.Checks Marco.Spec.Checks

/-- The full statement. A view is valid when its subscripts are. An insertion is valid when its
subscripts are, and the value has the shape of what they select. -/
def C94_full : Prop :=
  (∀ (dims : List ℕ) (indices : List ℤ), indices.length ≤ dims.length →
    (Passes (indexed dims indices) ↔ Inside (dims.take indices.length) indices)) ∧
  (∀ (dims : List ℕ) (subs : List Sub), Steps subs → subs.length ≤ dims.length →
    (Passes (view dims 0 subs) ↔ AllInBounds dims subs)) ∧
  (∀ (source dest : List ℕ) (subs : List Sub), Steps subs → subs.length ≤ dest.length →
    (Passes (insertSlice source dest subs) ↔ AllInBounds dest subs ∧ Shape dest subs source)) ∧
  (∀ (dims : List ℕ) (d : ℤ), dimension dims d = true ↔ ∃ k : ℕ, d = k ∧ k < dims.length) ∧
  (∀ (dims : List ℕ) (elem : List ℕ → ℚ), (∀ c ∈ divEW dims elem, c = true) ↔
    ∀ p, List.Forall₂ (fun (i d : ℕ) => i < d) p dims → elem p ≠ 0) ∧
  (∀ (f : Fn) (x : ℚ), domain f x = true ↔ Defined f x)

/-- Accesses with one index per dimension are checked exactly. -/
theorem C94_indexed_partial (dims : List ℕ) (indices : List ℤ)
    (h : indices.length = dims.length) :
    Passes (indexed dims indices) ↔ Inside dims indices := indexed_iff h

example : Passes (indexed [2, 3] [1, 2]) := (C94_indexed_partial _ _ rfl).2 (by simp [Inside])
example : ¬ Passes (indexed [2, 3] [1, 3]) := by
  rw [C94_indexed_partial _ _ rfl]; simp [Inside]

/-- A `SubscriptionOp` with fewer indices than dimensions reads beyond the indices
(RuntimeVerifiableOpInterfaceImpl.cpp:97-98). -/
theorem C94_indexed_ub (dims : List ℕ) (indices : List ℤ) (h : indices.length < dims.length) :
    indexed dims indices = none := indexed_none h

example : indexed [2, 3] [1] = none := C94_indexed_ub _ _ (by decide)

/-- The checks of the dimensions are exact. -/
theorem C94_dimension_partial (dims : List ℕ) (d : ℤ) :
    dimension dims d = true ↔ ∃ k : ℕ, d = k ∧ k < dims.length := by
  simp only [dimension, Bool.and_eq_true, decide_eq_true_eq]
  constructor
  · rintro ⟨h1, h2⟩; exact ⟨d.toNat, by omega, by omega⟩
  · rintro ⟨k, rfl, h⟩; exact ⟨by omega, by omega⟩

example : dimension [4, 5] 1 = true := (C94_dimension_partial _ _).2 ⟨1, rfl, by decide⟩
example : ¬ dimension [4, 5] 2 = true := by decide

/-- The element-wise divisions are checked for all the elements, and only for them. -/
theorem C94_divEW_partial (dims : List ℕ) (elem : List ℕ → ℚ) :
    (∀ c ∈ divEW dims elem, c = true) ↔
      ∀ p, List.Forall₂ (fun (i d : ℕ) => i < d) p dims → elem p ≠ 0 := divEW_iff dims elem

example : ¬ ∀ c ∈ divEW [2, 2] (fun p => if p = [1, 0] then 0 else 1), c = true := by
  rw [C94_divEW_partial]
  intro h
  exact h [1, 0] (by simp) (by simp)

/-- The checks of the domains of the functions are exact. -/
theorem C94_domain_partial (f : Fn) (x : ℚ) : domain f x = true ↔ Defined f (x : ℝ) := by
  have c1 : ((-1 : ℚ) ≤ x ↔ (-1 : ℝ) ≤ x) := by exact_mod_cast Iff.rfl
  have c2 : (x ≤ 1 ↔ (x : ℝ) ≤ 1) := by exact_mod_cast Iff.rfl
  have c3 : (0 < x ↔ (0 : ℝ) < x) := by exact_mod_cast Iff.rfl
  have c4 : (0 ≤ x ↔ (0 : ℝ) ≤ x) := by exact_mod_cast Iff.rfl
  cases f with
  | acos =>
    have : domain .acos x = true ↔ -1 ≤ x ∧ x ≤ 1 := by simp [domain, between]
    rw [this, c1, c2]
    constructor
    · rintro ⟨h1, h2⟩; exact ⟨Real.arccos x, Real.cos_arccos h1 h2⟩
    · rintro ⟨y, hy⟩; rw [← hy]; exact ⟨Real.neg_one_le_cos y, Real.cos_le_one y⟩
  | asin =>
    have : domain .asin x = true ↔ -1 ≤ x ∧ x ≤ 1 := by simp [domain, between]
    rw [this, c1, c2]
    constructor
    · rintro ⟨h1, h2⟩; exact ⟨Real.arcsin x, Real.sin_arcsin h1 h2⟩
    · rintro ⟨y, hy⟩; rw [← hy]; exact ⟨Real.neg_one_le_sin y, Real.sin_le_one y⟩
  | log =>
    have : domain .log x = true ↔ 0 < x := by simp [domain, positive]
    rw [this, c3]
    constructor
    · intro h; exact ⟨Real.log x, Real.exp_log h⟩
    · rintro ⟨y, hy⟩; rw [← hy]; exact Real.exp_pos y
  | log10 =>
    have : domain .log10 x = true ↔ 0 < x := by simp [domain, positive]
    rw [this, c3]
    constructor
    · intro h; exact ⟨Real.logb 10 x, Real.rpow_logb (by norm_num) (by norm_num) h⟩
    · rintro ⟨y, hy⟩; rw [← hy]; exact Real.rpow_pos_of_pos (by norm_num) y
  | sqrt =>
    have : domain .sqrt x = true ↔ 0 ≤ x := by simp [domain, positive]
    rw [this, c4]
    constructor
    · intro h; exact ⟨Real.sqrt x, Real.mul_self_sqrt h⟩
    · rintro ⟨y, hy⟩; rw [← hy]; exact mul_self_nonneg y

example : Defined .sqrt ((0 : ℚ) : ℝ) := (C94_domain_partial .sqrt 0).1 (by decide)
example : ¬ Defined .log ((0 : ℚ) : ℝ) := fun h => absurd ((C94_domain_partial .log 0).2 h) (by decide)

/-- The checks of a view do not stop valid views, if the ranges have elements or the dimensions are
not empty. -/
theorem C94_view_partial (dims : List ℕ) (subs : List Sub) (hs : Steps subs)
    (hf : Filled subs ∨ 0 ∉ dims) (h : AllInBounds dims subs) : Passes (view dims 0 subs) := by
  refine (view_iff (by simpa using h.1)).2 fun j s d h1 h2 => ?_
  rw [Nat.zero_add] at h2
  have hb := h.2 j s d h1 h2
  cases s with
  | index i => exact hb
  | unbounded => trivial
  | range b e s =>
    refine rangeSize_le (hs b e s (List.mem_of_getElem? h1)) ?_ hb
    rcases hf with hf | hf
    · exact .inl (hf b e s (List.mem_of_getElem? h1))
    · exact .inr (Nat.pos_of_ne_zero fun h0 => hf (h0 ▸ List.mem_of_getElem? h2))

/-- The checks of a view without bounded ranges are exact; with ranges, those of the scalar
subscripts are. -/
theorem C94_view_scalar_partial (dims : List ℕ) (subs : List Sub) (hl : subs.length ≤ dims.length)
    (h : Passes (view dims 0 subs)) (k : ℕ) (i : ℤ) (hk : subs[k]? = some (.index i)) :
    ∃ d, dims[k]? = some d ∧ 0 ≤ i ∧ i < d := by
  have hlt : k < dims.length := by
    have := (List.getElem?_eq_some_iff.1 hk).1
    omega
  refine ⟨dims[k], List.getElem?_eq_getElem hlt, ?_⟩
  exact (view_iff (by simpa using hl)).1 h k _ _ hk (by simp [hlt])

theorem C94_view_exact_partial (dims : List ℕ) (subs : List Sub) (hl : subs.length ≤ dims.length)
    (hr : ∀ b e s, Sub.range b e s ∉ subs) : Passes (view dims 0 subs) ↔ AllInBounds dims subs := by
  refine ⟨fun h => ⟨hl, fun k s d h1 h2 => ?_⟩, fun h => C94_view_partial dims subs
    (fun b e s h => absurd h (hr b e s)) (.inl fun b e s h => absurd h (hr b e s)) h⟩
  cases s with
  | index i =>
    obtain ⟨d', h3, h4⟩ := C94_view_scalar_partial dims subs hl h k i h1
    rw [h2] at h3
    cases h3
    exact h4
  | unbounded => trivial
  | range b e s => exact absurd (List.mem_of_getElem? h1) (hr b e s)

/-- `x[0:2, 3]` of a 4×5 tensor. -/
theorem C94_view_example : AllInBounds [4, 5] [.range 0 2 1, .index 3] := by
  refine ⟨by simp, fun k s d h1 h2 => ?_⟩
  match k with
  | 0 =>
    simp at h1 h2
    subst h1 h2
    rintro k (⟨_, h⟩ | ⟨h, _⟩)
    · constructor <;> push_cast <;> omega
    · omega
  | 1 =>
    simp at h1 h2
    subst h1 h2
    simp [InBounds]
  | k + 2 => simp at h1

example : Passes (view [4, 5] 0 [.range 0 2 1, .index 3]) :=
  C94_view_partial _ _ (by rintro b e s h; simp at h; omega) (.inr (by decide)) C94_view_example
example : ¬ Passes (view [4, 5] 0 [.unbounded, .index 5]) := by
  rw [C94_view_exact_partial _ _ (by simp) (by simp)]
  intro h
  have := h.2 1 (.index 5) 5 rfl rfl
  simp [InBounds] at this

/-- Of a range only the size is checked: `x[2:4]` of three elements passes
(RuntimeVerifiableOpInterfaceImpl.cpp:272-278). -/
theorem C94_view_false :
    Passes (view [3] 0 [.range 2 4 1]) ∧ ¬ AllInBounds [3] [.range 2 4 1] := by
  refine ⟨⟨[true], by decide, by simp⟩, fun h => ?_⟩
  have := h.2 0 _ _ rfl rfl 2 (.inl ⟨by decide, by decide⟩)
  exact absurd this.2 (by decide)

/-- An empty range of an empty dimension is stopped when the step is longer than the distance of the
two ends, since the size of the range is rounded towards zero. -/
theorem C94_view_false_alarm :
    AllInBounds [0] [.range 0 (-1) 2] ∧ ¬ Passes (view [0] 0 [.range 0 (-1) 2]) := by
  refine ⟨⟨by simp, fun k s d h1 h2 => ?_⟩, ?_⟩
  · match k with
    | 0 =>
      simp at h1 h2
      subst h1 h2
      rintro k (⟨_, h⟩ | ⟨h, _⟩) <;> omega
    | k + 1 => simp at h1
  · rintro ⟨cs, h, hc⟩
    have : view [0] 0 [.range 0 (-1) 2] = some [false] := by decide
    rw [this] at h
    cases h
    exact absurd (hc false (by simp)) (by decide)

/-- The checks of an insertion without unbounded ranges tell exactly whether the shapes fit, when the
ranks do and the ranges have elements. -/
theorem C94_insert_partial (source dest : List ℕ) (subs : List Sub) (hu : Sub.unbounded ∉ subs)
    (hf : Filled subs) (hl : subs.length ≤ dest.length)
    (hr : source.length = subs.countP (fun s => match s with | .range .. => true | _ => false) +
      (dest.length - subs.length)) :
    Passes (insertSlice source dest subs) ↔ Shape dest subs source :=
  insertSlice_iff (pre := []) (dpre := []) hu hf hl hr

/-- `x[1, 0:2] := v` for a 4×5×6 tensor and a 3×6 value. -/
example : Passes (insertSlice [3, 6] [4, 5, 6] [.index 1, .range 0 2 1]) := by
  refine (C94_insert_partial _ _ _ (by simp) ?_ (by simp) (by decide)).2
    (.index (.range (fun k => ?_) (.rest _)))
  · intro b e s h
    simp at h
    obtain ⟨rfl, rfl, rfl⟩ := h
    exact .inl ⟨by decide, by decide⟩
  · constructor
    · intro h; exact .inl ⟨by decide, by omega⟩
    · rintro (⟨_, h⟩ | ⟨h, _⟩) <;> omega
example : ¬ Passes (insertSlice [2, 6] [4, 5, 6] [.index 1, .range 0 2 1]) := by
  rintro ⟨cs, h, hc⟩
  have : insertSlice [2, 6] [4, 5, 6] [.index 1, .range 0 2 1] = some [false, true] := by decide
  rw [this] at h
  cases h
  exact absurd (hc false (by simp)) (by decide)

/-- The bounds of an insertion are not checked: `x[5:6] := {a, b}` for three elements passes
(RuntimeVerifiableOpInterfaceImpl.cpp:190-217). -/
theorem C94_insert_false :
    Passes (insertSlice [2] [3] [.range 5 6 1]) ∧ ¬ AllInBounds [3] [.range 5 6 1] := by
  refine ⟨⟨[true], by decide, by simp⟩, fun h => ?_⟩
  have := h.2 0 _ _ rfl rfl 0 (.inl ⟨by decide, by decide⟩)
  exact absurd this.2 (by decide)

/-- Nor are scalar subscripts: `x[7, :] := v`. -/
theorem C94_insert_false_scalar :
    Passes (insertSlice [2] [3, 2] [.index 7]) ∧ ¬ AllInBounds [3, 2] [.index 7] := by
  refine ⟨⟨[true], by decide, by simp⟩, fun h => ?_⟩
  exact absurd (h.2 0 _ _ rfl rfl).2 (by decide)

/-- An unbounded range does not advance the dimension of the source
(RuntimeVerifiableOpInterfaceImpl.cpp:197-199): the valid `x[:, 0:1] := v` of a 3×4 tensor and a 3×2
value compares the range with the first dimension of the value, then reads a third dimension of the
destination. -/
theorem C94_insert_false_unbounded :
    insertSlice [3, 2] [3, 4] [.unbounded, .range 0 1 1] = none ∧
    insertSubs [3, 2] 0 0 [.unbounded, .range 0 1 1] = some ([false], 1, 2) ∧
    AllInBounds [3, 4] [.unbounded, .range 0 1 1] ∧
    Shape [3, 4] [.unbounded, .range 0 1 1] [3, 2] := by
  refine ⟨by decide, by decide, ⟨by simp, fun k s d h1 h2 => ?_⟩, .unbounded (.range (fun k => ?_)
    (.rest _))⟩
  · match k with
    | 0 =>
      simp at h1 h2
      subst h1 h2
      trivial
    | 1 =>
      simp at h1 h2
      subst h1 h2
      rintro k (⟨_, h⟩ | ⟨h, _⟩)
      · constructor <;> push_cast <;> omega
      · omega
    | k + 2 => simp at h1
  · constructor
    · intro h; exact .inl ⟨by decide, by omega⟩
    · rintro (⟨_, h⟩ | ⟨h, _⟩) <;> omega

theorem C94_full_false : ¬ C94_full := by
  rintro ⟨_, h, _⟩
  exact C94_view_false.2 ((h [3] [.range 2 4 1] (by rintro b e s h; simp at h; omega) (by simp)).1 C94_view_false.1)

end Marco.Props
