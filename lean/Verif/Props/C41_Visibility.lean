import Verif.Lemmas.VariableFilter

/-! # C41: variable visibility follows the filter

Whether a variable is visible, and the rank of the element filters, are right. Two parts are false:
a disabled filter hides the derivatives (and shows everything else), and an element selected by a
regular expression is not shown if trackers with ranges exist for the same variable.
-/

namespace Marco.Props
open Marco.VF Spec

/-- The elements of variables that are shown. -/
def C41_elements_full : Prop := ∀ (match_ : Name → Name → Bool) (f : Filter) (name : Name)
  (idx : List ℤ), Shown (f.getVariableInfo match_ name idx.length) idx ↔
    f.enabled = false ∨ (∃ r ∈ f.regex, match_ r name = true) ∨ ∃ t ∈ f.vars name, FilterCovers t.ranges idx

/-- The derivatives that are shown. -/
def C41_der_full : Prop := ∀ (match_ : Name → Name → Bool) (f : Filter) (name : Name)
  (idx : List ℤ), Shown (f.getVariableDerInfo match_ name idx.length) idx ↔
    f.enabled = false ∨ (∃ r ∈ f.regex, match_ r (derName name) = true) ∨ f.ders name ≠ []

/-- `/x/;x[1:2]` does not show `x[3]`. -/
theorem C41_elements_full_false : ¬ C41_elements_full := by
  intro h
  have := (h (fun r n => r == n)
    { vars := fun n => if n = ['x'] then [⟨['x'], [⟨1, 2⟩]⟩] else [], regex := [['x']],
      enabled := true } ['x'] [3]).2 (Or.inr (Or.inl ⟨['x'], by simp, by decide⟩))
  obtain ⟨i, hi, _, hc⟩ := this
  simp only [Filter.getVariableInfo, if_true, List.map_cons, List.map_nil, List.isEmpty_cons,
    Bool.false_eq_true, if_false, List.mem_singleton] at hi
  subst hi
  have := hc 0 ⟨1, 2⟩ 3 (by decide) rfl
  revert this
  simp [InVRange]

/-- The disabled filter hides derivatives. -/
theorem C41_der_full_false : ¬ C41_der_full := by
  intro h
  obtain ⟨i, hi, hv, _⟩ := (h (fun _ _ => false) {} ['x'] []).2 (Or.inl rfl)
  simp only [Filter.getVariableDerInfo, Filter.matchesRegex, List.any_nil, Bool.false_eq_true,
    if_false, List.isEmpty_nil, if_true, List.mem_singleton] at hi
  subst hi
  cases hv

theorem matchesRegex_iff (match_ : Name → Name → Bool) (f : Filter) (name : Name) :
    f.matchesRegex match_ name = true ↔ ∃ r ∈ f.regex, match_ r name = true := by
  simp [Filter.matchesRegex]

/-- Visibility of variables. -/
theorem C41_visible (match_ : Name → Name → Bool) (f : Filter) (name : Name) (rank : Nat) :
    (∃ i ∈ f.getVariableInfo match_ name rank, i.visible = true) ↔
      f.enabled = false ∨ (∃ r ∈ f.regex, match_ r name = true) ∨ f.vars name ≠ [] := by
  rw [← matchesRegex_iff]
  simp only [Filter.getVariableInfo]
  cases hv : f.vars name with
  | nil =>
    simp only [List.map_nil, List.isEmpty_nil, if_true, List.mem_singleton, exists_eq_left, ne_eq,
      not_true_eq_false, or_false]
    cases f.matchesRegex match_ name <;> simp
  | cons t ts => simp

/-- All element filters have the rank of the variable. -/
theorem C41_rank (match_ : Name → Name → Bool) (f : Filter) (name : Name) (rank : Nat) :
    (∀ i ∈ f.getVariableInfo match_ name rank, i.ranges.length = rank) ∧
    (∀ i ∈ f.getVariableDerInfo match_ name rank, i.ranges.length = rank) := by
  constructor
  · intro i hi
    simp only [Filter.getVariableInfo] at hi
    split at hi
    · simp only [List.mem_singleton] at hi; subst hi; simp
    · simp only [List.mem_map] at hi
      obtain ⟨t, _, rfl⟩ := hi
      simp only [adapt, List.length_append, List.length_take, List.length_replicate]
      omega
  · intro i hi
    simp only [Filter.getVariableDerInfo, List.mem_singleton] at hi
    subst hi; simp

theorem covers_unbounded (n : Nat) (idx : List ℤ) :
    FilterCovers (List.replicate n ⟨kUnbounded, kUnbounded⟩) idx := by
  intro k r i hr _
  rw [List.getElem?_replicate] at hr
  split at hr
  · cases hr; exact ⟨Or.inl rfl, Or.inl rfl⟩
  · cases hr

theorem covers_adapt (rs : List VRange) (idx : List ℤ) :
    FilterCovers (adapt idx.length rs) idx ↔ FilterCovers rs idx := by
  have hlen : (rs.take (min idx.length rs.length)).length = min idx.length rs.length := by simp
  constructor
  · intro h k r i hr hi
    refine h k r i ?_ hi
    have h1 : k < idx.length := (List.getElem?_eq_some_iff.1 hi).1
    have h2 : k < rs.length := (List.getElem?_eq_some_iff.1 hr).1
    rw [adapt, List.getElem?_append_left (by rw [hlen]; omega), List.getElem?_take_of_lt (by omega)]
    exact hr
  · intro h k r i hr hi
    have h1 : k < idx.length := (List.getElem?_eq_some_iff.1 hi).1
    by_cases h2 : k < rs.length
    · rw [adapt, List.getElem?_append_left (by rw [hlen]; omega),
        List.getElem?_take_of_lt (by omega)] at hr
      exact h k r i hr hi
    · rw [adapt, List.getElem?_append_right (by rw [hlen]; omega), List.getElem?_replicate] at hr
      split at hr
      · cases hr; exact ⟨Or.inl rfl, Or.inl rfl⟩
      · cases hr

/-- Missing with respect to `C41_elements_full`: variables with trackers in a filter that is disabled
or has a regular expression matching the same variable. -/
theorem C41_elements_partial (match_ : Name → Name → Bool) (f : Filter) (name : Name) (idx : List ℤ)
    (h : f.vars name = [] ∨ (f.enabled = true ∧ ∀ r ∈ f.regex, match_ r name = false)) :
    Shown (f.getVariableInfo match_ name idx.length) idx ↔
      f.enabled = false ∨ (∃ r ∈ f.regex, match_ r name = true) ∨
        ∃ t ∈ f.vars name, FilterCovers t.ranges idx := by
  rcases h with h | ⟨h1, h2⟩
  · have hv := C41_visible match_ f name idx.length
    simp only [h, ne_eq, not_true_eq_false, or_false, List.not_mem_nil, false_and, exists_false]
      at hv ⊢
    rw [← hv]
    constructor
    · rintro ⟨i, hi, hvis, _⟩; exact ⟨i, hi, hvis⟩
    · rintro ⟨i, hi, hvis⟩
      refine ⟨i, hi, hvis, ?_⟩
      simp only [Filter.getVariableInfo, h, List.map_nil, List.isEmpty_nil, if_true,
        List.mem_singleton] at hi
      subst hi
      exact covers_unbounded _ _
  · have hm : f.matchesRegex match_ name = false := by
      rw [← Bool.not_eq_true, matchesRegex_iff]
      rintro ⟨r, hr, hm⟩
      rw [h2 r hr] at hm; cases hm
    have hr : ¬ ∃ r ∈ f.regex, match_ r name = true := by rw [← matchesRegex_iff, hm]; simp
    simp only [h1, hr, false_or, Bool.true_eq_false]
    constructor
    · rintro ⟨i, hi, hvis, hc⟩
      simp only [Filter.getVariableInfo, hm, h1] at hi
      split at hi
      · simp only [List.mem_singleton] at hi; subst hi; simp at hvis
      · obtain ⟨t, ht, rfl⟩ := List.mem_map.1 hi
        exact ⟨t, ht, (covers_adapt _ _).1 hc⟩
    · rintro ⟨t, ht, hc⟩
      refine ⟨⟨true, adapt idx.length t.ranges⟩, ?_, rfl, (covers_adapt _ _).2 hc⟩
      simp only [Filter.getVariableInfo]
      split
      · rename_i he
        rw [List.isEmpty_iff] at he
        rw [List.map_eq_nil_iff] at he
        rw [he] at ht; cases ht
      · exact List.mem_map.2 ⟨t, ht, rfl⟩

/-- Missing with respect to `C41_der_full`: the disabled filter. -/
theorem C41_der_partial (match_ : Name → Name → Bool) (f : Filter) (name : Name) (idx : List ℤ)
    (he : f.enabled = true) :
    Shown (f.getVariableDerInfo match_ name idx.length) idx ↔
      f.enabled = false ∨ (∃ r ∈ f.regex, match_ r (derName name) = true) ∨ f.ders name ≠ [] := by
  rw [← matchesRegex_iff]
  simp only [he, Shown, Filter.getVariableDerInfo, List.mem_singleton, exists_eq_left,
    Bool.true_eq_false, false_or]
  constructor
  · rintro ⟨hv, _⟩
    cases hm : f.matchesRegex match_ (derName name) with
    | true => exact Or.inl rfl
    | false =>
      right
      intro hd
      simp [hm, hd] at hv
  · intro h
    refine ⟨?_, covers_unbounded _ _⟩
    rcases h with h | h
    · simp [h]
    · simp [h]

/-- `x[2:3]` applied to a matrix: a missing dimension is free. -/
example : Shown (Filter.getVariableInfo (fun _ _ => false)
    { vars := fun n => if n = ['x'] then [⟨['x'], [⟨2, 3⟩]⟩] else [], enabled := true }
    ['x'] [3, 77].length) [3, 77] :=
  (C41_elements_partial _ _ _ [3, 77] (Or.inr ⟨rfl, by simp⟩)).2
    (Or.inr (Or.inr ⟨⟨['x'], [⟨2, 3⟩]⟩, by simp, by
      intro k r i hr hi
      match k with
      | 0 => cases hr; cases hi; exact ⟨Or.inr (by norm_num), Or.inr (by norm_num)⟩
      | k + 1 => cases hr⟩))

/-- `der(x)` is shown if it is tracked. -/
example : Shown (Filter.getVariableDerInfo (fun _ _ => false)
    { ders := fun n => if n = ['x'] then [⟨['x'], []⟩] else [], enabled := true } ['x'] [1].length) [1] :=
  (C41_der_partial _ _ _ [1] rfl).2 (Or.inr (Or.inr (by simp)))

end Marco.Props
