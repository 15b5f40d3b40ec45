import Verif.Lemmas.Vectorization

/-!
# C62: the type of a vectorized call

A call with arguments that are arrays of what the function expects gives arrays of results, with the dimensions that
the arguments have in addition.
-/

namespace Marco.Props
open Marco.Spec Marco.Vect

/-- A call is accepted exactly if it has additional dimensions (possibly none), and then these are the leading dimensions
of each result. -/
def C62_full : Prop :=
  ∀ (args : List Arg) (results rs : List (List Dim)), args ≠ [] →
    (vectorizedResults args results = some rs ↔
      ∃ d, CallDims args d ∧ rs = results.map fun r => d ++ r)

/-- An argument with the expected dimensions cannot be mixed with arrays of what is expected: `f(2, v)` is rejected. -/
theorem C62_mixed_false : ¬ C62_full := by
  intro h
  have := (h [⟨[], 0⟩, ⟨[some 3], 0⟩] [[]] [[some 3]] (by simp)).2
    ⟨[some 3], ⟨by
      intro a ha
      simp only [List.mem_cons, List.not_mem_nil, or_false] at ha
      rcases ha with rfl | rfl
      · exact .inl rfl
      · exact .inr ⟨rfl, fun i n _ h => h⟩, fun _ => ⟨⟨[some 3], 0⟩, by simp, by simp [Whole]⟩,
      fun i n h => ⟨⟨[some 3], 0⟩, by simp, by simp [Whole], h⟩⟩, rfl⟩
  revert this
  decide

/-- The number of dimensions of the first argument is not checked: a scalar is accepted where a vector is expected. -/
theorem C62_first_false : ¬ C62_full := by
  intro h
  obtain ⟨d, ⟨h1, -, -⟩, -⟩ := (h [⟨[], 1⟩] [[]] [[]] (by simp)).1 (by decide)
  rcases h1 ⟨[], 1⟩ (by simp) with h | ⟨h, -⟩
  · simp [Whole] at h
  · simp at h; omega

/-- The property holds if the first argument has at least the expected number of dimensions, and either all the
arguments have the expected number of dimensions or none has. Missing: the other calls, for which it is false. -/
theorem C62_vectorizedCalls_partial (a : Arg) (as : List Arg) (results rs : List (List Dim))
    (hf : a.expected ≤ a.shape.length)
    (hw : (∀ b ∈ a :: as, b.shape.length = b.expected) ∨ ∀ b ∈ a :: as, b.shape.length ≠ b.expected) :
    vectorizedResults (a :: as) results = some rs ↔
      ∃ d, CallDims (a :: as) d ∧ rs = results.map fun r => d ++ r := by
  simp only [vectorizedResults, Option.map_eq_some_iff]
  constructor
  · rintro ⟨d, hd, rfl⟩
    exact ⟨d, (vectorizedDims_iff a as d hf hw).1 hd, rfl⟩
  · rintro ⟨d, hd, rfl⟩
    exact ⟨d, (vectorizedDims_iff a as d hf hw).2 hd, rfl⟩

/-- The additional dimensions are unique. -/
theorem C62_unique (a : Arg) (as : List Arg) (d e : List Dim) (hf : a.expected ≤ a.shape.length)
    (hw : (∀ b ∈ a :: as, b.shape.length = b.expected) ∨ ∀ b ∈ a :: as, b.shape.length ≠ b.expected)
    (hd : CallDims (a :: as) d) (he : CallDims (a :: as) e) : d = e := by
  have h1 := (vectorizedDims_iff a as d hf hw).2 hd
  have h2 := (vectorizedDims_iff a as e hf hw).2 he
  rw [h1] at h2
  exact Option.some.inj h2

/-- Two arguments whose known dimensions complete each other: a matrix of scalars and a matrix of vectors. -/
example : vectorizedResults [⟨[none, some 3], 0⟩, ⟨[some 2, none, some 5], 1⟩] [[], [some 7]] =
    some [[some 2, some 3], [some 2, some 3, some 7]] := by decide

example : (0 ≤ [none, some 3].length) ∧
    ∀ b ∈ ([⟨[none, some 3], 0⟩, ⟨[some 2, none, some 5], 1⟩] : List Arg), b.shape.length ≠ b.expected := by decide

end Marco.Props
