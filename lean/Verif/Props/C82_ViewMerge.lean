import Verif.Lemmas.TensorViews

/-! # C82 — the canonicalization of views of tensors -/

namespace Marco.Props
open Marco.Views Spec.Views

/-- C82 at full strength: merged views and extractions denote the same elements. -/
def C82_full : Prop :=
  (∀ t t', ValidTensor t → mergeViews t = some t' → ∀ p r v x, Elem p t r v x ↔ Elem p t' r v x) ∧
    ∀ e e', ValidExtract e → mergeExtract e = some e' →
      ∀ p v x, ExtractElem p e v x ↔ ExtractElem p e' v x

/-- Views on top of views with scalar subscripts only. The outermost view may have ranges. -/
theorem C82_views_partial (t : Tensor) (subs : List Sub) (t' : Tensor)
    (hs : AllSubs (·.isRange = false) t) (hm : mergeViews (.view t subs) = some t') (p : Point)
    (r : Point) (v : String) (x : Point) : Elem p (.view t subs) r v x ↔ Elem p t' r v x := by
  cases t with
  | src => simp [mergeViews] at hm
  | view t inner =>
    simp only [mergeViews, Option.some.injEq] at hm
    subst hm
    rw [elem_view, elem_view]
    constructor
    · rintro ⟨q, h1, h2⟩
      obtain ⟨q', h3, h4⟩ := (elem_chain hs).1 h2
      exact ⟨q', (locates_append (chain_scalar hs)).2 ⟨q, h1, h3⟩, h4⟩
    · rintro ⟨q', h1, h2⟩
      obtain ⟨q, h3, h4⟩ := (locates_append (chain_scalar hs)).1 h1
      exact ⟨q, h3, (elem_chain hs).2 ⟨q', h4, h2⟩⟩

/-- Extractions from views with scalar subscripts only. -/
theorem C82_extract_partial (e e' : Extract) (hs : AllSubs (·.isRange = false) e.tensor)
    (hi : ∀ s ∈ e.indices, s.isRange = false) (hm : mergeExtract e = some e') (p : Point)
    (v : String) (x : Point) : ExtractElem p e v x ↔ ExtractElem p e' v x := by
  obtain ⟨t, indices⟩ := e
  cases t with
  | src => simp [mergeExtract] at hm
  | view t inner =>
    simp only [mergeExtract, Option.some.injEq] at hm
    subst hm
    have hall : ∀ s ∈ (chain (.view t inner)).2 ++ indices, s.isRange = false := by
      intro s h
      rcases List.mem_append.1 h with h | h
      · exact chain_scalar hs s h
      · exact hi s h
    rw [extractElem_iff hi, extractElem_iff hall, values_append]
    refine (elem_chain hs).trans ⟨?_, fun h => ⟨_, (locates_scalar (chain_scalar hs)).2 rfl, h⟩⟩
    rintro ⟨q, h1, h2⟩
    exact (locates_scalar (chain_scalar hs)).1 h1 ▸ h2

/-- The result of a merge: one operation on the tensor that is not a view. -/
theorem C82_source (e e' : Extract) (hm : mergeExtract e = some e') :
    ∃ v shape, e'.tensor = .src v shape := by
  have key : ∀ t, ∃ v shape, (chain t).1 = .src v shape := by
    intro t
    induction t with
    | src v shape => exact ⟨v, shape, rfl⟩
    | view t subs ih => exact ih
  obtain ⟨t, indices⟩ := e
  cases t with
  | src => simp [mergeExtract] at hm
  | view t inner =>
    simp only [mergeExtract, Option.some.injEq] at hm
    subst hm
    exact key (.view t inner)

/-- An extraction from a chain of views of which one has a range becomes an extraction that has a
range among its indices: it denotes no element. -/
theorem C82_extract_wrong (e e' : Extract) (hs : ¬ AllSubs (·.isRange = false) e.tensor)
    (hm : mergeExtract e = some e') (p : Point) (v : String) (x : Point) :
    ¬ ExtractElem p e' v x := by
  obtain ⟨t, indices⟩ := e
  cases t with
  | src => simp [mergeExtract] at hm
  | view t inner =>
    simp only [mergeExtract, Option.some.injEq] at hm
    subst hm
    obtain ⟨s, h1, h2⟩ := chain_range hs
    rintro ⟨r, h3, -⟩
    simp only at h3
    obtain ⟨i, _, f, rfl, _⟩ : ∃ i, i ∈ r ∧ ∃ f : Point → ℤ, s = .at f ∧ i = f p := by
      have hmem : s ∈ (chain (.view t inner)).2 ++ indices := List.mem_append_left _ h1
      generalize (chain (.view t inner)).2 ++ indices = l at h3 hmem
      induction h3 with
      | nil => simp at hmem
      | cons h4 _ ih =>
        rcases List.mem_cons.1 hmem with rfl | h
        · exact ⟨_, List.mem_cons_self .., h4⟩
        · obtain ⟨i, h5, h6⟩ := ih h
          exact ⟨i, List.mem_cons_of_mem _ h5, h6⟩
    simp [Sub.isRange] at h2

/-- Two rows of a matrix. -/
def C82_rows : Tensor := .view (.src "x" [3, 2]) [.range (fun _ => 1) (fun _ => 2) (fun _ => 1)]

/-- The element of a slice. -/
def C82_slice : Extract :=
  ⟨.view (.src "x" [3]) [.range (fun _ => 1) (fun _ => 2) (fun _ => 1)], [.at fun _ => 0]⟩

theorem C82_full_false : ¬ C82_full := by
  rintro ⟨-, h⟩
  have h1 : ExtractElem [] C82_slice "x" [1] :=
    ⟨[0], .cons ⟨fun _ => 0, rfl, rfl⟩ .nil,
      .view (.range (fun _ => 1) (fun _ => 2) (fun _ => 1) 0 (.nil [])) (.src rfl)⟩
  have h2 := (h C82_slice _ ⟨⟨trivial, by decide⟩, rfl, by simp [C82_slice, Sub.isRange]⟩ rfl
    [] "x" [1]).1 h1
  refine C82_extract_wrong C82_slice _ ?_ rfl [] "x" [1] h2
  rintro ⟨-, h3⟩
  simpa [Sub.isRange] using h3 _ (List.mem_cons_self ..)

/-- Also the merge of two views changes the elements, with a result of the same type: the first of
the rows 1 and 2 of a matrix becomes the first column of these rows. -/
theorem C82_views_wrong :
    ValidTensor (.view C82_rows [.at fun _ => 0]) ∧
    ∃ t', mergeViews (.view C82_rows [.at fun _ => 0]) = some t' ∧
      t'.dims [] = (Tensor.view C82_rows [.at fun _ => 0]).dims [] ∧
      (∀ x, Elem [] (.view C82_rows [.at fun _ => 0]) [1] "x" x ↔ x = [1, 1]) ∧
      ∀ x, Elem [] t' [1] "x" x ↔ x = [2, 0] := by
  refine ⟨⟨⟨trivial, by decide⟩, by decide⟩, _, rfl, by decide, fun x => ⟨fun h => ?_, ?_⟩,
    fun x => ⟨fun h => ?_, ?_⟩⟩
  · cases h with
    | view h1 h2 =>
      cases h1 with
      | «at» _ h1 =>
        cases h1 with
        | nil =>
          cases h2 with
          | view h3 h4 =>
            cases h3 with
            | range _ _ _ _ h3 =>
              cases h3
              cases h4
              rfl
  · rintro rfl
    exact .view (.at _ (.nil [1])) (.view (.range _ _ _ 0 (.nil [1])) (.src rfl))
  · cases h with
    | view h1 h2 =>
      cases h1 with
      | range _ _ _ _ h1 =>
        cases h1 with
        | «at» _ h1 =>
          cases h1
          cases h2
          rfl
  · rintro rfl
    exact .view (.range _ _ _ 1 (.at _ (.nil []))) (.src rfl)

/-- The hypotheses of the partial theorems: `x[i, :, 3][j]`. -/
example : ∃ e', mergeExtract ⟨.view (.view (.src "x" [4, 4, 4]) [.at fun p => p.getD 0 0])
      [.at fun p => p.getD 1 0 + 1], [.at fun _ => 3]⟩ = some e' ∧
    ExtractElem [2, 1] e' "x" [2, 2, 3] := by
  refine ⟨_, rfl, (C82_extract_partial ⟨.view (.view (.src "x" [4, 4, 4]) [.at fun p => p.getD 0 0])
      [.at fun p => p.getD 1 0 + 1], [.at fun _ => 3]⟩ _ ?_ ?_ rfl _ _ _).1 ?_⟩
  · simp [AllSubs, Sub.isRange]
  · simp [Sub.isRange]
  · exact ⟨[3], .cons ⟨_, rfl, rfl⟩ .nil, .view (.at _ (.nil _)) (.view (.at _ (.nil _)) (.src rfl))⟩

end Marco.Props
