import Verif.Props.C41_Visibility

/-! # C52: the printable indices are the elements of the array that the filter shows

False: bounds beyond the size of the array are taken as they are (`x[1:9]` for a vector of five
elements gives the indices 0 to 8), and so is the lower bound 0. Proved when all bounds lie in the
array.
-/

namespace Marco.Props
open Marco.VF Spec

/-- The 0-based element lies in the array. -/
def InShape (shape : List Nat) (idx : List ℤ) : Prop :=
  shape.length = idx.length ∧
  ∀ (k : Nat) (n : Nat) (i : ℤ), shape[k]? = some n → idx[k]? = some i → 0 ≤ i ∧ i < n

/-- The claim; the filter counts from one. -/
def C52_full : Prop := ∀ (shape : List Nat) (infos : List Info) (idx : List ℤ),
  (∀ i ∈ infos, i.ranges.length = shape.length) →
  ((∃ b ∈ printable shape infos, InBoxL b idx) ↔
    InShape shape idx ∧ Shown infos (idx.map (· + 1)))

/-- `x[1:9]` for a vector of five elements. -/
theorem C52_full_false : ¬ C52_full := by
  intro h
  have := (h [5] [⟨true, [⟨1, 9⟩]⟩] [7] (by simp)).1 ⟨[(0, 9)], by decide, rfl, by
    intro k r i hr hi
    match k with
    | 0 => cases hr; cases hi; norm_num
    | k + 1 => cases hr⟩
  have := this.1.2 0 5 7 rfl rfl
  omega

/-- The bounds lie in the array. -/
def BoundsIn (shape : List Nat) (rs : List VRange) : Prop :=
  ∀ (k : Nat) (n : Nat) (r : VRange), shape[k]? = some n → rs[k]? = some r →
    (r.lower = -1 ∨ 1 ≤ r.lower) ∧ (r.upper = -1 ∨ r.upper ≤ n)

/-- Missing with respect to `C52_full`: bounds outside of the array. -/
theorem C52_printable_partial (shape : List Nat) (infos : List Info) (idx : List ℤ)
    (hr : ∀ i ∈ infos, i.ranges.length = shape.length)
    (hb : ∀ i ∈ infos, i.visible = true → BoundsIn shape i.ranges) :
    (∃ b ∈ printable shape infos, InBoxL b idx) ↔
      InShape shape idx ∧ Shown infos (idx.map (· + 1)) := by
  have key : ∀ i ∈ infos, i.visible = true →
      (InBoxL (List.zipWith printableRange i.ranges shape) idx ↔
        InShape shape idx ∧ FilterCovers i.ranges (idx.map (· + 1))) := by
    intro i hi hv
    have hlen := hr i hi
    have hbi := hb i hi hv
    have hzl : (List.zipWith printableRange i.ranges shape).length = shape.length := by simp [hlen]
    constructor
    · rintro ⟨h1, h2⟩
      rw [hzl] at h1
      have hk : ∀ (k n : Nat) (r : VRange) (x : ℤ), shape[k]? = some n → i.ranges[k]? = some r →
          idx[k]? = some x → (0 ≤ x ∧ x < n) ∧ InVRange r (x + 1) := by
        intro k n r x hn hr hx
        have := h2 k (printableRange r n) x (by rw [List.getElem?_zipWith, hr, hn]) hx
        obtain ⟨b1, b2⟩ := hbi k n r hn hr
        simp only [printableRange, kUnbounded, bne_iff_ne, ne_eq, ite_not] at this
        simp only [InVRange]
        split at this <;> split at this <;> omega
      refine ⟨⟨h1, ?_⟩, ?_⟩
      · intro k n x hn hx
        have hkl : k < i.ranges.length := by rw [hlen]; exact (List.getElem?_eq_some_iff.1 hn).1
        exact (hk k n _ x hn (List.getElem?_eq_getElem hkl) hx).1
      · intro k r y hr hy
        rw [List.getElem?_map, Option.map_eq_some_iff] at hy
        obtain ⟨x, hx, rfl⟩ := hy
        have hkl : k < shape.length := by rw [h1]; exact (List.getElem?_eq_some_iff.1 hx).1
        exact (hk k _ r x (List.getElem?_eq_getElem hkl) hr hx).2
    · rintro ⟨⟨h1, h2⟩, h3⟩
      refine ⟨by rw [hzl, h1], ?_⟩
      intro k p x hp hx
      rw [List.getElem?_zipWith] at hp
      cases hr : i.ranges[k]? with
      | none => simp [hr] at hp
      | some r =>
        cases hn : shape[k]? with
        | none => simp [hr, hn] at hp
        | some n =>
          simp only [hr, hn, Option.some.injEq] at hp
          subst hp
          obtain ⟨b1, b2⟩ := hbi k n r hn hr
          have c1 := h2 k n x hn hx
          have c2 := h3 k r (x + 1) hr (by rw [List.getElem?_map, hx]; rfl)
          simp only [InVRange] at c2
          simp only [printableRange, kUnbounded, bne_iff_ne, ne_eq, ite_not]
          split <;> split <;> omega
  simp only [printable, List.mem_map, List.mem_filter]
  constructor
  · rintro ⟨_, ⟨i, ⟨hi, hv⟩, rfl⟩, hbx⟩
    obtain ⟨h1, h2⟩ := (key i hi hv).1 hbx
    exact ⟨h1, i, hi, hv, h2⟩
  · rintro ⟨h1, i, hi, hv, h2⟩
    exact ⟨_, ⟨i, ⟨hi, hv⟩, rfl⟩, (key i hi hv).2 ⟨h1, h2⟩⟩

/-- The rank hypothesis holds for the answers of the filter. -/
theorem C52_filter_rank (match_ : Name → Name → Bool) (f : Filter) (name : Name) (shape : List Nat) :
    ∀ i ∈ f.getVariableInfo match_ name shape.length, i.ranges.length = shape.length :=
  (C41_rank match_ f name shape.length).1

/-- `x[2:3]` for a vector of five elements. -/
example : ∃ b ∈ printable [5] [⟨true, [⟨2, 3⟩]⟩], InBoxL b [2] :=
  (C52_printable_partial [5] [⟨true, [⟨2, 3⟩]⟩] [2] (by simp) (by
    intro i hi _
    simp only [List.mem_singleton] at hi
    subst hi
    intro k n r hn hr
    match k with
    | 0 => cases hn; cases hr; norm_num
    | k + 1 => cases hn)).2
  ⟨⟨rfl, by
    intro k n i hn hi
    match k with
    | 0 => cases hn; cases hi; norm_num
    | k + 1 => cases hn⟩, ⟨true, [⟨2, 3⟩]⟩, by simp, rfl, by
    intro k r i hr hi
    match k with
    | 0 => cases hr; cases hi; exact ⟨Or.inr (by norm_num), Or.inr (by norm_num)⟩
    | k + 1 => cases hr⟩

end Marco.Props
