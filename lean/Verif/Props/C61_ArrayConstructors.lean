import Verif.Lemmas.ArrayConstructors

/-!
# C61: an array constructor becomes a tensor with its dimensions and its elements

For `{a, b, …}` and `{e for i in 1:n, j in 1:m}`, nested in each other.
-/

namespace Marco.Props
open Marco.Stmts Marco.Spec Marco.Arrays

/-- The constructor of an array that has dimensions, and whose names are in scope, is lowered to a tensor with the
same dimensions and the same elements; and a constructor that gives a tensor has dimensions. -/
def C61_full : Prop :=
  (∀ (Γ : Scope) (a : Arr false) (sh : List Nat), HasShape a sh → arrScoped Γ a = true → (∀ e, a ≠ .leaf e) →
    (∀ x s, a ≠ .whole x s) →
    ∃ t, lowerArray Γ a = .ok t ∧ ∀ ρ, (∀ x, x ∈ Γ.inds ↔ (ρ x).isSome) → ∀ ν σ,
      tensorValue ρ σ t = some (sh.map fun n : Nat => (n : Int), elements ν σ a ρ)) ∧
  (∀ (Γ : Scope) (a : Arr false) (t : Tensor), lowerArray Γ a = .ok t →
    (∀ ρ σ, tensorValue ρ σ t ≠ none) → ∃ sh, HasShape a sh)

/-- `{i for i in 1:3}` -/
def firstThree : Arr false := .gen [⟨"i", 1, 3, none⟩] (.leaf (.var "i"))

/-- The iteration variable is not declared in the value of a generator: `{i for i in 1:3}` is rejected. -/
theorem C61_index_false : HasShape firstThree [3] ∧ arrScoped ⟨[], []⟩ firstThree = true ∧
    lowerArray ⟨[], []⟩ firstThree = .error :=
  ⟨.gen .leaf, by decide, rfl⟩

/-- If there is a variable with the name of the iteration variable, then the elements are copies of the variable. -/
theorem C61_hidden_false : ¬ C61_full := by
  intro h
  obtain ⟨t, ht, hv⟩ := h.1 ⟨[], ["i"]⟩ firstThree [3] (.gen .leaf) (by decide) nofun nofun
  cases (show lowerArray ⟨[], ["i"]⟩ firstThree = .ok (.broadcast [3] (.scalar (.get "i"))) from rfl).symm.trans ht
  have := hv (fun _ => none) (by simp) (fun _ => []) (fun _ => 7)
  revert this
  decide

/-- A range that does not start from 1 or has a step fails an assertion. -/
theorem C61_range_false :
    HasShape (.gen [⟨"i", 2, 3, none⟩] (.leaf (.const 0))) [2] ∧
    lowerArray ⟨[], []⟩ (.gen [⟨"i", 2, 3, none⟩] (.leaf (.const 0))) = .ub :=
  ⟨.gen .leaf, rfl⟩

/-- `{a, a}` -/
def twice : Arr false := .arr (.cons (.whole "a" [2]) (.cons (.whole "a" [2]) .nil))

/-- Elements that are arrays, without being constructors, are taken as scalars: the operation is not valid. -/
theorem C61_array_false : HasShape twice [2, 2] ∧ arrScoped ⟨[], ["a"]⟩ twice = true ∧
    ∃ t, lowerArray ⟨[], ["a"]⟩ twice = .ok t ∧ ∀ ρ σ, tensorValue ρ σ t = none :=
  ⟨.arr (.cons .whole (.cons .whole .nil)), by decide, .fromElements [2] [.array "a" [2], .array "a" [2]],
    by simp [lowerArray, twice, lowerValues, collect_one, leaves, computeShape, lowerLeaves, lowerLeaf, ok_bind,
      pure_ok, Arr.toList], fun _ _ => rfl⟩

/-- `{{1, 2}, {3}, {4, 5, 6}}` -/
def ragged : Arr false :=
  .arr (.cons (.arr (.cons (.leaf (.const 1)) (.cons (.leaf (.const 2)) .nil)))
    (.cons (.arr (.cons (.leaf (.const 3)) .nil))
      (.cons (.arr (.cons (.leaf (.const 4)) (.cons (.leaf (.const 5)) (.cons (.leaf (.const 6)) .nil)))) .nil)))

/-- Rows of different lengths are accepted if the number of elements fits: `{{1, 2}, {3}, {4, 5, 6}}` becomes
`{{1, 2}, {3, 4}, {5, 6}}`. -/
theorem C61_ragged_false : (∀ sh, ¬ HasShape ragged sh) ∧
    ∃ t, lowerArray ⟨[], []⟩ ragged = .ok t ∧ ∀ ρ σ, tensorValue ρ σ t = some ([3, 2], [1, 2, 3, 4, 5, 6]) := by
  constructor
  · intro sh h
    cases h with
    | arr h =>
      cases h with
      | cons h1 h2 =>
        cases h2 with
        | cons h2 h3 =>
          cases h1 with
          | arr h1 =>
            cases h2
  · refine ⟨.fromElements [3, 2] [.scalar (.const 1), .scalar (.const 2), .scalar (.const 3), .scalar (.const 4),
      .scalar (.const 5), .scalar (.const 6)], ?_, fun _ _ => rfl⟩
    simp [lowerArray, ragged, lowerValues, collect_one, leaves, computeShape, lowerLeaves, lowerLeaf, lowerEx, ok_bind,
      pure_ok, Arr.toList]

/-- The first part holds if no element is an array variable, no generator uses its iteration variables, and every
range is `1:n` or `1:1:n`. Missing: the other constructors, and that constructors without dimensions are rejected, for
which the property is false. -/
theorem C61_arrayConstructors_partial (Γ : Scope) (a : Arr false) (sh : List Nat) (hs : HasShape a sh)
    (hc : arrScoped Γ a = true) (hg : ∀ e, a ≠ .leaf e) (hp : plain [] a = true) :
    ∃ t, lowerArray Γ a = .ok t ∧ ∀ ρ, (∀ x, x ∈ Γ.inds ↔ (ρ x).isSome) → ∀ ν σ,
      tensorValue ρ σ t = some (sh.map fun n : Nat => (n : Int), elements ν σ a ρ) :=
  lowerArray_ok hs hp hc hg

/-- `{{x, 1} for i in 1:3, j in 1:2}` has dimensions 2, 3 and 2. -/
example : HasShape (.gen [⟨"i", 1, 3, none⟩, ⟨"j", 1, 2, none⟩]
      (.arr (.cons (.leaf (.var "x")) (.cons (.leaf (.const 1)) .nil)))) [2, 3, 2] ∧
    arrScoped ⟨[], ["x"]⟩ (.gen [⟨"i", 1, 3, none⟩, ⟨"j", 1, 2, none⟩]
      (.arr (.cons (.leaf (.var "x")) (.cons (.leaf (.const 1)) .nil)))) = true ∧
    plain [] (.gen [⟨"i", 1, 3, none⟩, ⟨"j", 1, 2, none⟩]
      (.arr (.cons (.leaf (.var "x")) (.cons (.leaf (.const 1)) .nil)))) = true :=
  ⟨.gen (.arr (.cons .leaf (.cons .leaf .nil))), by decide, by decide⟩

/-- The traversal with two stacks finds the leaves from left to right: `{{1, 2}, {3, 4}}`. -/
example : collect [.arr (.cons (.arr (.cons (.leaf (.const 1)) (.cons (.leaf (.const 2)) .nil)))
      (.cons (.arr (.cons (.leaf (.const 3)) (.cons (.leaf (.const 4)) .nil))) .nil))] [] =
    [.leaf (.const 1), .leaf (.const 2), .leaf (.const 3), .leaf (.const 4)] := by
  simp [collect_one, leaves]

/-- A constructor without generators whose lowering succeeds has only names that are in scope. -/
theorem C61_scope_partial (Γ : Scope) (a : Arr false) (t : Tensor) (hg : generatorFree a = true) (h : lowerArray Γ a = .ok t) :
    arrScoped Γ a = true := by
  cases a with
  | leaf _ => cases h
  | whole _ _ => cases h
  | gen _ _ => simp [generatorFree] at hg
  | arr cs =>
    simp only [lowerArray] at h
    obtain ⟨sh, -, h⟩ := bind_ok h
    obtain ⟨es, hes, -⟩ := bind_ok h
    rw [lowerValues, collect_one] at hes
    exact scoped_of_leaves _ hg (lowerLeaves_scoped _ _ hes)

/-- `{a, {x}}` is lowered if `a` and `x` are variables, and rejected if `a` is not. -/
example : (∃ t, lowerArray ⟨[], ["a", "x"]⟩ (.arr (.cons (.whole "a" [2]) (.cons (.leaf (.var "x")) .nil))) = .ok t) ∧
    lowerArray ⟨[], ["x"]⟩ (.arr (.cons (.whole "a" [2]) (.cons (.leaf (.var "x")) .nil))) = .error := by
  constructor
  · exact ⟨.fromElements [2] [.array "a" [2], .scalar (.get "x")], by
      simp [lowerArray, lowerValues, collect_one, leaves, computeShape, lowerLeaves, lowerLeaf, ok_bind, pure_ok, Arr.toList,
        lowerEx, lowerVar]⟩
  · simp [lowerArray, lowerValues, collect_one, leaves, computeShape, lowerLeaves, lowerLeaf, ok_bind, pure_ok, Arr.toList,
      lowerEx, lowerVar]
    rfl

end Marco.Props
