import Verif.Lemmas.TensorViews

/-! # C83 — the folding of views into accesses -/

namespace Marco.Props
open Marco.Views Spec.Views

/-- The folding of extractions: the result is an extraction from the source that denotes the same
element. -/
def C83_extracts : Prop :=
  ∀ e : Extract, ValidExtract e → AllSubs (·.isAll = false) e.tensor →
    ∃ e', foldExtracts e.tensor e.indices = .new e' ∧ ValidExtract e' ∧
      (∀ p v x, ExtractElem p e v x ↔ ExtractElem p e' v x) ∧
      (NoTrivial e.tensor → ∃ v shape, e'.tensor = .src v shape)

/-- The folding of views: a view with scalar subscripts that reaches all the ranges of the view that
it is based on is replaced by a view of the source, with the same elements. -/
def C83_views : Prop :=
  ∀ t inner subs, ValidTensor (.view (.view t inner) subs) →
    AllSubs (·.isAll = false) (.view (.view t inner) subs) → (∀ s ∈ subs, s.isRange = false) →
    inner ≠ [] → inner.countP Sub.isRange ≤ subs.length →
    ∃ l, foldView (.view (.view t inner) subs) = .new (.view t l) ∧
      ∀ p r v x, Elem p (.view (.view t inner) subs) r v x ↔ Elem p (.view t l) r v x

/-- C83 at full strength. -/
def C83_full : Prop := C83_extracts ∧ C83_views

/-- One application of the pattern for extractions. -/
theorem C83_step (t : Tensor) (inner indices : List Sub)
    (hv : ValidExtract ⟨.view t inner, indices⟩) (ha : AllSubs (·.isAll = false) (.view t inner))
    (hne : inner ≠ []) :
    ∃ l, foldExtract ⟨.view t inner, indices⟩ = .new ⟨t, l⟩ ∧ ValidExtract ⟨t, l⟩ ∧
      ∀ p v x, ExtractElem p ⟨.view t inner, indices⟩ v x ↔ ExtractElem p ⟨t, l⟩ v x := by
  obtain ⟨⟨ht, hlen⟩, hr, hs⟩ := hv
  simp only at hr hs
  rw [Tensor.rank] at hr
  obtain ⟨l, h1, h2, h3, h4⟩ := concat_spec (first := inner) (second := indices) ha.2 hs (by omega)
  refine ⟨l, ?_, ⟨ht, ?_, h2⟩, fun p v x => ?_⟩
  · simp [foldExtract, isSlicing_of hlen hne, h1]
  · simp only
    omega
  · rw [extractElem_iff (e := ⟨.view t inner, indices⟩) hs, extractElem_iff (e := ⟨t, l⟩) h2]
    simp only
    rw [elem_view]
    constructor
    · rintro ⟨q, h5, h6⟩
      exact (h4 p q).1 h5 ▸ h6
    · exact fun h6 => ⟨_, (h4 p _).2 rfl, h6⟩

/-- Extractions are folded, through any number of views. -/
theorem C83_extract_partial : C83_extracts := by
  rintro ⟨t, indices⟩ hv ha
  induction t generalizing indices with
  | src v shape =>
    exact ⟨⟨.src v shape, indices⟩, rfl, hv, fun _ _ _ => Iff.rfl, fun _ => ⟨v, shape, rfl⟩⟩
  | view t inner ih =>
    by_cases hne : inner = []
    · subst hne
      refine ⟨⟨.view t [], indices⟩, ?_, hv, fun _ _ _ => Iff.rfl, fun h => absurd rfl h.2⟩
      simp [foldExtracts, foldExtract, isSlicing_nil]
    · obtain ⟨l, h1, h2, h3⟩ := C83_step t inner indices hv ha hne
      obtain ⟨e', h4, h5, h6, h7⟩ := ih l h2 ha.1
      refine ⟨e', ?_, h5, fun p v x => (h3 p v x).trans (h6 p v x), fun h => h7 h.1⟩
      simp only [foldExtracts, h1]
      exact h4

/-- An element is never turned into another one: extractions denote at most one element. -/
theorem C83_unique (e : Extract) (p : Point) (v w : String) (x y : Point)
    (h1 : ExtractElem p e v x) (h2 : ExtractElem p e w y) : v = w ∧ x = y := by
  have loc : ∀ {l : List Sub} {r q : Point}, Locates p l r q → ∀ {q'}, Locates p l r q' → q = q' := by
    intro l r q h
    induction h with
    | nil => intro q' h'; cases h'; rfl
    | «at» f _ ih => intro q' h'; cases h' with | «at» _ h' => rw [ih h']
    | range b e s i _ ih => intro q' h'; cases h' with | range _ _ _ _ h' => rw [ih h']
    | all i _ ih => intro q' h'; cases h' with | all _ h' => rw [ih h']
  have el : ∀ {t : Tensor} {r : Point} {v : String} {x : Point}, Elem p t r v x →
      ∀ {w : String} {y : Point}, Elem p t r w y → v = w ∧ x = y := by
    intro t r v x h
    induction h with
    | src => intro w y h'; cases h'; exact ⟨rfl, rfl⟩
    | view hl _ ih =>
      intro w y h'
      cases h' with
      | view hl' h' =>
        obtain rfl := loc hl hl'
        exact ih h'
  obtain ⟨r, h3, h4⟩ := h1
  obtain ⟨r', h5, h6⟩ := h2
  obtain rfl : r = r' := by
    clear h4 h6
    generalize e.indices = l at h3 h5
    induction h3 generalizing r' with
    | nil => cases h5; rfl
    | cons h7 _ ih =>
      cases h5 with
      | cons h8 h9 =>
        obtain ⟨f, rfl, rfl⟩ := h7
        obtain ⟨g, h10, rfl⟩ := h8
        cases h10
        rw [ih _ h9]
  exact el h4 h6

/-- A view with a subscript is never folded: the test adds the number of subscripts to the rank of
the source, where the difference is meant. -/
theorem C83_view_never (t : Tensor) (subs : List Sub) (hv : ValidTensor (.view t subs))
    (hne : subs ≠ []) : foldView (.view t subs) = .same := by
  cases t with
  | src => rfl
  | view t inner => simp [foldView, isSlicing_of hv.2 hne]

/-- A view without subscripts of a view with a range is undefined: the subscripts are read beyond
their end. -/
theorem C83_view_undefined (t : Tensor) (inner : List Sub) (hv : ValidTensor (.view t inner))
    (hr : ∃ s ∈ inner, s.isRange = true) :
    foldView (.view (.view t inner) []) = .undefined := by
  have hne : inner ≠ [] := by rintro rfl; simp at hr
  have key : ∀ l : List Sub, (∃ s ∈ l, s.isRange = true) → concat l [] = .undefined := by
    intro l
    induction l with
    | nil => simp
    | cons s l ih =>
      rintro ⟨s', hs, h1⟩
      cases s with
      | «at» f =>
        rcases List.mem_cons.1 hs with rfl | hs
        · simp [Sub.isRange] at h1
        · simp [concat, ih ⟨s', hs, h1⟩]
      | range b e s => rfl
      | all => rfl
  simp [foldView, isSlicing_nil, isSlicing_of hv.2 hne, key inner hr]

/-- The second row of the last two rows of a matrix remains a view of a view. -/
theorem C83_full_false : ¬ C83_full := by
  rintro ⟨-, h⟩
  have hv : ValidTensor (.view (.view (.src "x" [3, 2])
      [.range (fun _ => 1) (fun _ => 2) (fun _ => 1)]) [.at fun _ => 1]) :=
    ⟨⟨trivial, by decide⟩, by decide⟩
  obtain ⟨l, h1, _⟩ := h (.src "x" [3, 2]) [.range (fun _ => 1) (fun _ => 2) (fun _ => 1)]
    [.at fun _ => 1] hv
    ⟨⟨trivial, by simp [Sub.isAll]⟩, by simp [Sub.isAll]⟩ (by simp [Sub.isRange]) (by simp)
    (by decide)
  rw [C83_view_never _ _ hv (by simp)] at h1
  simp at h1

/-- `x[5:-2:1, i][k]` with `i = 2`, `k = 1` is `x[3, 2]`, counting from 0; and it is folded to it. -/
def C83_example : Extract :=
  ⟨.view (.src "x" [6, 4]) [.range (fun _ => 5) (fun _ => 1) (fun _ => -2), .at fun p => p.getD 0 0],
    [.at fun p => p.getD 1 0]⟩

theorem C83_example_valid : ValidExtract C83_example ∧ AllSubs (·.isAll = false) C83_example.tensor ∧
    NoTrivial C83_example.tensor :=
  ⟨⟨⟨trivial, by decide⟩, rfl, by simp [C83_example, Sub.isRange]⟩,
    ⟨trivial, by simp [Sub.isAll]⟩, ⟨trivial, by simp⟩⟩

example : ∃ e', foldExtracts C83_example.tensor C83_example.indices = .new e' ∧
    ExtractElem [2, 1] e' "x" [3, 2] := by
  obtain ⟨e', h1, _, h2, _⟩ := C83_extract_partial C83_example C83_example_valid.1
    C83_example_valid.2.1
  refine ⟨e', h1, (h2 _ _ _).1 ⟨[1], .cons ⟨_, rfl, rfl⟩ .nil, ?_⟩⟩
  exact .view (.range _ _ _ 1 (.at _ (.nil []))) (.src rfl)

end Marco.Props
