import Verif.Lemmas.Vectorization

/-!
# C63: the loops of a vectorized call

The pass that creates the loops counts the additional dimensions of a call.
-/

namespace Marco.Props
open Marco.Spec Marco.Vect

/-- There is a loop for each additional dimension of the call, and loops are created only for calls whose arguments
have the same additional dimensions. -/
def C63_full : Prop :=
  ∀ args : List Arg, args ≠ [] → (∀ a ∈ args, ¬ Whole a) →
    (∀ d, CallDims args d → vectorizationRank 1 args = d.length) ∧
    (vectorizationRank 1 args ≠ 0 → ∃ d, CallDims args d)

/-- The size of the first dimension is taken for all of them: no loop is created for two arguments with 2 × 3
elements. -/
theorem C63_rectangular_false : ¬ C63_full := by
  intro h
  have := (h [⟨[some 2, some 3], 0⟩, ⟨[some 2, some 3], 0⟩] (by simp) (by simp [Whole])).1 [some 2, some 3]
    ((vectorizedDims_iff _ _ _ (by decide) (.inr (by simp [Whole]))).1 (by decide))
  revert this
  decide

/-- Arguments with 2 × 3 and with 2 × 2 elements are accepted. -/
theorem C63_conflict_false : ¬ C63_full := by
  intro h
  obtain ⟨d, hd⟩ := (h [⟨[some 2, some 3], 0⟩, ⟨[some 2, some 2], 0⟩] (by simp) (by simp [Whole])).2 (by decide)
  have := (vectorizedDims_iff _ _ _ (by decide) (.inr (by simp [Whole]))).2 hd
  revert this
  rw [show vectorizedDims [⟨[some 2, some 3], 0⟩, ⟨[some 2, some 2], 0⟩] = none by decide]
  exact nofun

/-- The property holds if the additional dimensions of the first argument are the same, in particular if there is only
one. Missing: the other calls, for which it is false. -/
theorem C63_vectorizationLoops_partial (a : Arg) (as : List Arg) (hw : ∀ b ∈ a :: as, b.shape.length ≠ b.expected)
    (hs : ∀ i, i < a.shape.length - a.expected → a.shape[i]? = a.shape[0]?) :
    (∀ d, CallDims (a :: as) d → vectorizationRank 1 (a :: as) = d.length) ∧
    (vectorizationRank 1 (a :: as) ≠ 0 → ∃ d, CallDims (a :: as) d) := by
  by_cases hle : a.shape.length ≤ a.expected
  · have hlt : a.shape.length < a.expected := lt_of_le_of_ne hle (hw a (by simp))
    refine ⟨fun d hd => ?_, fun h => ?_⟩
    · rcases hd.1 a (by simp) with h | ⟨h, -⟩
      · exact absurd h (hw a (by simp))
      · omega
    · simp [vectorizationRank, hle] at h
  · have hpos : 0 < a.shape.length := by omega
    have htake : List.replicate (a.shape.length - a.expected) (a.shape[0]?.getD none) =
        a.shape.take (a.shape.length - a.expected) := by
      refine List.ext_getElem? fun i => ?_
      rw [List.getElem?_replicate, List.getElem?_take]
      split
      · rename_i hi
        rw [hs i hi, List.getElem?_eq_getElem hpos]
        rfl
      · rfl
    have hne : a.shape.take (a.shape.length - a.expected) ≠ [] := by
      intro h
      have := congrArg List.length h
      simp at this
      omega
    have key : vectorizationRank 1 (a :: as) = ((vectorizedDims (a :: as)).map (·.length)).getD 0 := by
      simp only [vectorizationRank, if_neg hle, htake, vectorizedDims]
      exact otherArgsRank_eq as _ hne
    rw [key]
    refine ⟨fun d hd => ?_, fun h => ?_⟩
    · rw [(vectorizedDims_iff a as d (by omega) (.inr hw)).2 hd]
      rfl
    · cases hv : vectorizedDims (a :: as) with
      | none => rw [hv] at h; simp at h
      | some d => exact ⟨d, (vectorizedDims_iff a as d (by omega) (.inr hw)).1 hv⟩

/-- No loop is created for a function with several results. -/
theorem C63_results (n : Nat) (hn : n ≠ 1) (args : List Arg) : vectorizationRank n args = 0 := by
  simp [vectorizationRank, hn]

/-- A vector of scalars and a vector of vectors. -/
example : vectorizationRank 1 [⟨[none], 0⟩, ⟨[some 4, some 3], 1⟩] = 1 ∧
    (∀ b ∈ ([⟨[none], 0⟩, ⟨[some 4, some 3], 1⟩] : List Arg), b.shape.length ≠ b.expected) := by decide

/-- Two square matrices. -/
example : vectorizationRank 1 [⟨[some 3, some 3], 0⟩, ⟨[some 3, none], 0⟩] = 2 := by decide

end Marco.Props
