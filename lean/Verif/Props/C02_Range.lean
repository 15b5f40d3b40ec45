import Verif.Spec.Sets
import Mathlib.Tactic.ByContra

/-!
# C02: Range set operations are exact
-/

namespace Marco.Props
open Marco Spec

/-- `contains(x)` is membership. -/
theorem C02_containsInt (r : Range) (x : Int) : r.containsInt x = true ↔ InR x r := by
  simp [Range.containsInt, InR]

/-- `contains(Range)` is inclusion. -/
theorem C02_containsRange (r s : Range) (hs : s.Valid) :
    r.containsRange s = true ↔ ∀ x, InR x s → InR x r := by
  simp only [Range.containsRange, Bool.and_eq_true, decide_eq_true_eq, InR, Range.Valid] at *
  constructor
  · rintro ⟨h1, h2⟩ x ⟨h3, h4⟩; omega
  · intro h
    have h1 := h s.b (by omega)
    have h2 := h (s.e - 1) (by omega)
    omega

/-- `overlaps` is non-empty intersection. -/
theorem C02_overlaps (r s : Range) (hr : r.Valid) (hs : s.Valid) :
    r.overlaps s = true ↔ ∃ x, InR x r ∧ InR x s := by
  simp only [Range.overlaps, Bool.and_eq_true, decide_eq_true_eq, InR, Range.Valid] at *
  constructor
  · rintro ⟨h1, h2⟩
    exact ⟨max r.b s.b, by omega, by omega⟩
  · rintro ⟨x, h1, h2⟩; omega

/-- `intersect` of overlapping ranges is a valid range and denotes the intersection. -/
theorem C02_intersect (r s : Range) (hr : r.Valid) (hs : s.Valid) (h : r.overlaps s = true) :
    (r.intersect s).Valid ∧ ∀ x, InR x (r.intersect s) ↔ (InR x r ∧ InR x s) := by
  simp only [Range.overlaps, Bool.and_eq_true, decide_eq_true_eq, Range.Valid] at *
  refine ⟨?_, ?_⟩
  · simp only [Range.intersect, Range.containsRange, Bool.and_eq_true, decide_eq_true_eq]
    split_ifs <;> (try simp) <;> omega
  · intro x
    simp only [Range.intersect, Range.containsRange, Bool.and_eq_true, decide_eq_true_eq, InR]
    split_ifs <;> (try simp) <;> omega

/-- `canBeMerged` holds exactly when the union of the two ranges is again a range. -/
theorem C02_canBeMerged (r s : Range) (hr : r.Valid) (hs : s.Valid) :
    r.canBeMerged s = true ↔ ∃ t : Range, ∀ x, InR x t ↔ (InR x r ∨ InR x s) := by
  simp only [Range.canBeMerged, Range.overlaps, Bool.or_eq_true, beq_iff_eq, Bool.and_eq_true,
    decide_eq_true_eq, Range.Valid] at *
  constructor
  · intro h
    refine ⟨⟨min r.b s.b, max r.e s.e⟩, ?_⟩
    intro x
    simp only [InR]
    omega
  · rintro ⟨t, ht⟩
    have key : ∀ x, (t.b ≤ x ∧ x < t.e) ↔ ((r.b ≤ x ∧ x < r.e) ∨ (s.b ≤ x ∧ x < s.e)) := ht
    have h1 := key r.b
    have h2 := key s.b
    have h3 := key (r.e)
    have h4 := key (s.e)
    have h5 := key (r.e - 1)
    have h6 := key (s.e - 1)
    omega

/-- `merge` of mergeable ranges is a valid range and denotes the union. -/
theorem C02_merge (r s : Range) (hr : r.Valid) (hs : s.Valid) (h : r.canBeMerged s = true) :
    (r.merge s).Valid ∧ ∀ x, InR x (r.merge s) ↔ (InR x r ∨ InR x s) := by
  simp only [Range.canBeMerged, Range.overlaps, Bool.or_eq_true, beq_iff_eq, Bool.and_eq_true,
    decide_eq_true_eq, Range.Valid] at *
  refine ⟨?_, ?_⟩
  · simp only [Range.merge, Range.overlaps, Bool.and_eq_true, decide_eq_true_eq, beq_iff_eq]
    split_ifs <;> (try simp) <;> omega
  · intro x
    simp only [Range.merge, Range.overlaps, Bool.and_eq_true, decide_eq_true_eq, beq_iff_eq, InR]
    split_ifs <;> (try simp) <;> omega

/-- `subtract` returns valid, pairwise disjoint ranges whose union is the difference. -/
theorem C02_subtract (r s : Range) (hr : r.Valid) (hs : s.Valid) :
    (∀ t ∈ r.subtract s, t.Valid) ∧
    (r.subtract s).Pairwise (fun a b => ∀ x, ¬ (InR x a ∧ InR x b)) ∧
    (∀ x, (∃ t ∈ r.subtract s, InR x t) ↔ InR x r ∧ ¬ InR x s) := by
  simp only [Range.Valid, Range.subtract, Range.overlaps, Range.containsRange, bne_iff_ne,
    Bool.not_eq_true', Bool.and_eq_false_iff, Bool.and_eq_true, decide_eq_true_eq,
    decide_eq_false_iff_not, InR] at *
  split_ifs <;> simp <;> (try constructor) <;> (try intros) <;> (try constructor) <;> omega

-- Non-vacuity: every hypothesis above is met by concrete, non-trivial ranges.
example : (⟨0, 10⟩ : Range).Valid ∧ (⟨3, 5⟩ : Range).Valid ∧
    (⟨0, 10⟩ : Range).overlaps ⟨3, 5⟩ = true ∧ (⟨0, 10⟩ : Range).canBeMerged ⟨10, 12⟩ = true ∧
    (⟨0, 10⟩ : Range).subtract ⟨3, 5⟩ = [⟨0, 3⟩, ⟨5, 10⟩] := by decide

end Marco.Props
