import Verif.Spec.TensorViews
import Mathlib.Data.List.Forall2

/-! # Lemmas on the views of tensors -/

namespace Marco.Views
open Marco.Spec.Views

/-- Scalars, in order. -/
def values (p : Point) : List Sub → Point
  | [] => []
  | .at f :: ss => f p :: values p ss
  | _ :: ss => values p ss

theorem locates_append {p : Point} {l subs : List Sub} (h : ∀ s ∈ l, s.isRange = false)
    {r x : Point} :
    Locates p (l ++ subs) r x ↔ ∃ q, Locates p subs r q ∧ Locates p l q x := by
  induction l generalizing x with
  | nil => exact ⟨fun h => ⟨x, h, .nil x⟩, fun ⟨q, h1, h2⟩ => by cases h2; exact h1⟩
  | cons s l ih =>
    have hl : ∀ s ∈ l, s.isRange = false := fun s hs => h s (List.mem_cons_of_mem _ hs)
    have hs := h s (List.mem_cons_self ..)
    cases s with
    | «at» f =>
      constructor
      · intro hx
        cases hx with
        | «at» _ hx =>
          obtain ⟨q, h1, h2⟩ := (ih hl).1 hx
          exact ⟨q, h1, .at f h2⟩
      · rintro ⟨q, h1, h2⟩
        cases h2 with
        | «at» _ h2 => exact .at f ((ih hl).2 ⟨q, h1, h2⟩)
    | range b e s => simp [Sub.isRange] at hs
    | all => simp [Sub.isRange] at hs

theorem elem_view {p : Point} {t : Tensor} {subs : List Sub} {r : Point} {v : String} {x : Point} :
    Elem p (.view t subs) r v x ↔ ∃ q, Locates p subs r q ∧ Elem p t q v x := by
  constructor
  · intro h
    cases h with
    | view h1 h2 => exact ⟨_, h1, h2⟩
  · rintro ⟨q, h1, h2⟩
    exact .view h1 h2

theorem chain_scalar {t : Tensor} (h : AllSubs (·.isRange = false) t) :
    ∀ s ∈ (chain t).2, s.isRange = false := by
  induction t with
  | src => simp [chain]
  | view t' subs' ih' =>
    intro s hs
    rcases List.mem_append.1 hs with hs | hs
    · exact ih' h.1 s hs
    · exact h.2 s hs

/-- The chain of views denotes the concatenation, if all subscripts are scalars. -/
theorem elem_chain {p : Point} {t : Tensor} (h : AllSubs (·.isRange = false) t) {r : Point}
    {v : String} {x : Point} :
    Elem p t r v x ↔ ∃ q, Locates p (chain t).2 r q ∧ Elem p (chain t).1 q v x := by
  induction t generalizing r with
  | src w shape =>
    simp only [chain]
    exact ⟨fun h => ⟨r, .nil r, h⟩, fun ⟨q, h1, h2⟩ => by cases h1; exact h2⟩
  | view t subs ih =>
    rw [elem_view]
    have hc := chain_scalar h.1
    constructor
    · rintro ⟨q, h1, h2⟩
      obtain ⟨q', h3, h4⟩ := (ih h.1).1 h2
      exact ⟨q', (locates_append hc).2 ⟨q, h1, h3⟩, h4⟩
    · rintro ⟨q', h1, h2⟩
      obtain ⟨q, h3, h4⟩ := (locates_append hc).1 h1
      exact ⟨q, h3, (ih h.1).2 ⟨q', h4, h2⟩⟩

theorem chain_range {t : Tensor} (h : ¬ AllSubs (·.isRange = false) t) :
    ∃ s ∈ (chain t).2, s.isRange = true := by
  induction t with
  | src => exact absurd trivial h
  | view t' subs' ih' =>
    by_cases h1 : AllSubs (·.isRange = false) t'
    · have : ¬ ∀ s ∈ subs', s.isRange = false := fun h2 => h ⟨h1, h2⟩
      push Not at this
      obtain ⟨s, hs, h3⟩ := this
      exact ⟨s, List.mem_append_right _ hs, by simpa using h3⟩
    · obtain ⟨s, hs, h3⟩ := ih' h1
      exact ⟨s, List.mem_append_left _ hs, h3⟩

theorem forall₂_values {p : Point} {l : List Sub} (h : ∀ s ∈ l, s.isRange = false) (r : Point) :
    List.Forall₂ (fun s i => ∃ f : Point → ℤ, s = .at f ∧ i = f p) l r ↔ r = values p l := by
  induction l generalizing r with
  | nil => simp [values]
  | cons s l ih =>
    have hs := h s (List.mem_cons_self ..)
    cases s with
    | «at» f =>
      constructor
      · intro h2
        cases h2 with
        | cons h3 h4 =>
          obtain ⟨g, h5, rfl⟩ := h3
          cases h5
          rw [values, (ih (fun s hs => h s (List.mem_cons_of_mem _ hs)) _).1 h4]
      · rintro rfl
        exact .cons ⟨f, rfl, rfl⟩ ((ih (fun s hs => h s (List.mem_cons_of_mem _ hs)) _).2 rfl)
    | range b e s => simp [Sub.isRange] at hs
    | all => simp [Sub.isRange] at hs

theorem extractElem_iff {p : Point} {e : Extract} (h : ∀ s ∈ e.indices, s.isRange = false)
    {v : String} {x : Point} :
    ExtractElem p e v x ↔ Elem p e.tensor (values p e.indices) v x := by
  constructor
  · rintro ⟨r, h1, h2⟩
    rw [forall₂_values h] at h1
    exact h1 ▸ h2
  · exact fun h2 => ⟨_, (forall₂_values h _).2 rfl, h2⟩

theorem values_append (p : Point) (l l' : List Sub) :
    values p (l ++ l') = values p l ++ values p l' := by
  induction l with
  | nil => rfl
  | cons s l ih => cases s <;> simp [values, ih]

/-- A location with scalar subscripts only. -/
theorem locates_scalar {p : Point} {l : List Sub} (h : ∀ s ∈ l, s.isRange = false) {r q : Point} :
    Locates p l r q ↔ q = values p l ++ r := by
  induction l generalizing q with
  | nil => exact ⟨fun h => by cases h; rfl, by rintro rfl; exact .nil _⟩
  | cons s l ih =>
    have hs := h s (List.mem_cons_self ..)
    have hl : ∀ s ∈ l, s.isRange = false := fun s hs => h s (List.mem_cons_of_mem _ hs)
    cases s with
    | «at» f =>
      constructor
      · intro h2
        cases h2 with
        | «at» _ h3 => rw [(ih hl).1 h3]; rfl
      · rintro rfl
        exact .at f ((ih hl).2 rfl)
    | range b e s => simp [Sub.isRange] at hs
    | all => simp [Sub.isRange] at hs

/-- What the concatenation of `ViewAccessFolding` is for scalar indices, with the rest of the
coordinates of the source. -/
theorem concat_spec {first second : List Sub} (ha : ∀ s ∈ first, s.isAll = false)
    (h : ∀ s ∈ second, s.isRange = false) (hn : first.countP Sub.isRange ≤ second.length) :
    ∃ l, concat first second = .new l ∧ (∀ s ∈ l, s.isRange = false) ∧
      l.length + first.countP Sub.isRange = first.length + second.length ∧
      ∀ p q, Locates p first (values p second) q ↔ q = values p l := by
  induction first generalizing second with
  | nil =>
    refine ⟨second, rfl, h, by simp, fun p q => ?_⟩
    exact ⟨fun h => by cases h; rfl, by rintro rfl; exact .nil _⟩
  | cons s first ih =>
    have ha' : ∀ s ∈ first, s.isAll = false := fun s hs => ha s (List.mem_cons_of_mem _ hs)
    cases s with
    | «at» f =>
      obtain ⟨l, h1, h2, h3, h4⟩ := ih ha' h (by simpa [Sub.isRange] using hn)
      refine ⟨.at f :: l, by simp [concat, h1], ?_, ?_, fun p q => ?_⟩
      · intro s hs
        rcases List.mem_cons.1 hs with rfl | hs
        · rfl
        · exact h2 s hs
      · simp only [List.length_cons, List.countP_cons, Sub.isRange]
        simp only [Bool.false_eq_true, if_false]
        omega
      · constructor
        · intro h5
          cases h5 with
          | «at» _ h5 => rw [(h4 p _).1 h5]; rfl
        · rintro rfl
          exact .at f ((h4 p _).2 rfl)
    | range b e s =>
      cases second with
      | nil => simp [Sub.isRange] at hn
      | cons s2 second =>
        have hs2 := h s2 (List.mem_cons_self ..)
        cases s2 with
        | «at» g =>
          obtain ⟨l, h1, h2, h3, h4⟩ := ih ha'
            (fun s hs => h s (List.mem_cons_of_mem _ hs) : ∀ s ∈ second, s.isRange = false)
            (by simp [List.countP_cons, Sub.isRange] at hn; omega)
          refine ⟨.at (fun p => g p * s p + b p) :: l, by simp [concat, h1], ?_, ?_, fun p q => ?_⟩
          · intro s hs
            rcases List.mem_cons.1 hs with rfl | hs
            · rfl
            · exact h2 s hs
          · simp only [List.length_cons, List.countP_cons, Sub.isRange]
            simp only [if_true]
            omega
          · constructor
            · intro h5
              cases h5 with
              | range _ _ _ _ h5 =>
                rw [(h4 p _).1 h5, values]
                congr 1
                omega
            · rintro rfl
              rw [values, values]
              have := Locates.range b e s (g p) ((h4 p _).2 rfl)
              rwa [Int.add_comm] at this
        | range _ _ _ => simp [Sub.isRange] at hs2
        | all => simp [Sub.isRange] at hs2
    | all => simp [Sub.isAll] at ha

theorem isSlicing_of {t : Tensor} {subs : List Sub} (h : subs.length ≤ t.rank) (hne : subs ≠ []) :
    isSlicing t subs = true := by
  have h1 : subs.countP Sub.isRange ≤ subs.length := List.countP_le_length
  have h2 : 0 < subs.length := List.length_pos_of_ne_nil hne
  rw [isSlicing, Tensor.rank]
  exact decide_eq_true (by omega)

theorem isSlicing_nil (t : Tensor) : isSlicing t [] = false := by
  simp [isSlicing, Tensor.rank]

theorem sliceLocates_kept {o n s : ℤ} {ds : List Dim} {r q : Point} :
    SliceLocates (⟨o, n, s, true⟩ :: ds) r q ↔
      ∃ i r' q', r = i :: r' ∧ q = (o + i * s) :: q' ∧ SliceLocates ds r' q' := by
  constructor
  · intro h
    cases h with
    | kept _ _ _ i h => exact ⟨i, _, _, rfl, rfl, h⟩
  · rintro ⟨i, r', q', rfl, rfl, h⟩
    exact .kept _ _ _ _ h

theorem locates_range {p : Point} {b e s : Point → ℤ} {ss : List Sub} {r q : Point} :
    Locates p (.range b e s :: ss) r q ↔
      ∃ i r' q', r = i :: r' ∧ q = (b p + i * s p) :: q' ∧ Locates p ss r' q' := by
  constructor
  · intro h
    cases h with
    | range _ _ _ i h => exact ⟨i, _, _, rfl, rfl, h⟩
  · rintro ⟨i, r', q', rfl, rfl, h⟩
    exact .range _ _ _ _ h

end Marco.Views
