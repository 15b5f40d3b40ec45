import Verif.Props.C09_FromRanges
import Verif.Props.C14_Equality

/-!
# C13: the compact representation preserves the set

The points are always preserved. The returned boxes are disjoint when the stored ranges are; they
may not be (C09), and compaction does not repair it: `C13_disjoint_false`.
-/

namespace Marco.Props
open Marco Spec IndexSet

/-- The full claim C13: same points, disjoint boxes, and the set rebuilt from them is equal to the
original. -/
def C13_full : Prop := ∀ (k : Nat) (s : IndexSet), SetOk k s →
  (∀ p, InL p s.compactRanges ↔ Has s p) ∧ DisjL s.compactRanges ∧
  (s.isEmpty = false → (ofRanges s.compactRanges).eq s = true)

/-- The compact ranges of the set built from three overlapping boxes still overlap. -/
theorem C13_disjoint_false : ¬ C13_full := by
  intro h
  have h1 := (h 2 (ofRanges [[⟨0, 6⟩, ⟨2, 4⟩], [⟨2, 3⟩, ⟨4, 6⟩], [⟨0, 3⟩, ⟨2, 5⟩]])
    (ofRanges_spec (by unfold Ranked; decide)).1).2.1
  have e : (ofRanges [[⟨0, 6⟩, ⟨2, 4⟩], [⟨2, 3⟩, ⟨4, 6⟩], [⟨0, 3⟩, ⟨2, 5⟩]]).compactRanges =
      [[⟨0, 3⟩, ⟨2, 5⟩], [⟨2, 3⟩, ⟨4, 6⟩], [⟨3, 6⟩, ⟨2, 4⟩]] := by
    decide +kernel
  rw [e] at h1
  unfold DisjL at h1
  simp only [List.pairwise_cons] at h1
  refine h1.1 [⟨2, 3⟩, ⟨4, 6⟩] (by simp) [2, 4] ⟨?_, ?_⟩ <;> simp [InB, InR]

/-- C13, the part that holds: the compact ranges denote exactly the points of the set, they are
disjoint if the stored ranges are, and the set rebuilt from them is equal to the original. Missing
from `C13_full`: disjointness for sets whose stored ranges overlap. -/
theorem C13_compact_partial (k : Nat) (s : IndexSet) (hs : SetOk k s) :
    (∀ p, InL p s.compactRanges ↔ Has s p) ∧ (DisjL s.ranges → DisjL s.compactRanges) ∧
    (s.isEmpty = false → (ofRanges s.compactRanges).eq s = true) := by
  have h := compactRanges_spec hs
  refine ⟨h.mem, h.disj, fun hne => ?_⟩
  obtain ⟨h1, _, h3, _⟩ := ofRanges_spec h.ranked
  have hc : ∀ p, Has (ofRanges s.compactRanges) p ↔ Has s p := fun p => (h3 p).trans (h.mem p)
  refine (C14_eq_nonempty k _ _ h1 hs ?_ hne).2 hc
  have hr : s.root ≠ none := by
    intro e; simp [isEmpty, e] at hne
  have hsr : s.ranges ≠ [] := by rw [Ne, ranges_eq_nil_iff hs]; exact hr
  obtain ⟨b, hb⟩ := List.exists_mem_of_ne_nil _ hsr
  obtain ⟨p, hp⟩ := ranked_exists (ranges_ranked hs b hb)
  have : Has (ofRanges s.compactRanges) p := (hc p).2 ⟨b, hb, hp⟩
  cases hroot : (ofRanges s.compactRanges).root with
  | none => rw [Has, ranges_none hroot] at this; exact absurd this (inL_nil p)
  | some n => simp [isEmpty, hroot]

/-! ### The fuel of the grid splitting loop is sufficient -/

theorem size_split (x y : Range) (hx : x.Valid) (hy : y.Valid) (h : x.overlaps y = true) :
    ((x.intersect y :: x.subtract y).map Range.size).sum = x.size := by
  simp only [Range.overlaps, Bool.and_eq_true, decide_eq_true_eq, Range.Valid] at *
  simp only [Range.intersect, Range.subtract, Range.overlaps, Range.containsRange, Range.size,
    Bool.and_eq_true, decide_eq_true_eq, Bool.not_eq_true', Bool.and_eq_false_iff,
    decide_eq_false_iff_not, bne_iff_ne]
  split_ifs <;> simp [Range.size] <;> omega

theorem extent_append (d : Nat) (a b : List Box) : extent d (a ++ b) = extent d a + extent d b := by
  simp [extent]

theorem extent_splitStep {k d : Nat} (hd : d < k) {g r : Box} (hg : Ranked k g) (hr : Ranked k r) :
    extent d (splitStep d g r) = extent d [r] := by
  unfold splitStep
  split_ifs with h
  · have hx := getD_valid hr hd
    have hy := getD_valid hg hd
    have hs : (r.getD d ⟨0, 0⟩).overlaps (g.getD d ⟨0, 0⟩) = true := by
      unfold shouldSplit at h
      rw [C02_overlaps _ _ hy hx] at h
      rw [C02_overlaps _ _ hx hy]
      obtain ⟨z, h1, h2⟩ := h
      exact ⟨z, h2, h1⟩
    have := size_split _ _ hx hy hs
    have hdl : d < r.length := by rw [hr.2]; exact hd
    have e : ∀ t : Range, (r.set d t).getD d ⟨0, 0⟩ = t := by
      intro t
      rw [List.getD_eq_getElem?_getD, List.getElem?_set_self hdl]; rfl
    unfold extent splitRange
    simp only [List.map_map, Function.comp_def, e]
    rw [this]; simp
  · rfl

theorem extent_flatMap {k d : Nat} (hd : d < k) {g : Box} (hg : Ranked k g) : ∀ (l : List Box),
    (∀ b ∈ l, Ranked k b) → extent d (l.flatMap (splitStep d g)) = extent d l
  | [], _ => rfl
  | a :: l, h => by
    rw [List.flatMap_cons, extent_append, extent_splitStep hd hg (h a (by simp)),
      extent_flatMap hd hg l (fun b hb => h b (by simp [hb]))]
    simp [extent]

/-- More fuel than the extent along the dimension does not change the result: the loop over `it1`
has reached the end of the list. -/
theorem C13_split_terminates (k d : Nat) (hd : d < k) : ∀ (fuel : Nat) (l r : List Box),
    (∀ b ∈ r, Ranked k b) → extent d r ≤ fuel → splitLoop d (fuel + 1) l r = splitLoop d fuel l r
  | 0, l, [], _, _ => by simp [splitLoop]
  | 0, l, g :: r, hr, hf => by
    have := getD_valid (hr g (by simp)) hd
    simp only [extent, List.map_cons, List.sum_cons, Range.size, Range.Valid] at *
    omega
  | fuel + 1, l, [], _, _ => by simp [splitLoop]
  | fuel + 1, l, g :: r, hr, hf => by
    have hg := hr g (by simp)
    have hr' : ∀ b ∈ r, Ranked k b := fun b hb => hr b (by simp [hb])
    rw [splitLoop, splitLoop]
    apply C13_split_terminates k d hd fuel
    · exact (splitStep_flatMap hg hd hr').ranked
    · rw [extent_flatMap hd hg r hr']
      have := getD_valid hg hd
      simp only [extent, List.map_cons, List.sum_cons, Range.size, Range.Valid] at *
      omega

-- Two boxes forming an L: compacted as the grid split in the first dimension and merged.
example : SetOk 2 (ofRanges [[⟨0, 2⟩, ⟨0, 2⟩], [⟨0, 1⟩, ⟨2, 5⟩]]) :=
  (ofRanges_spec (by unfold Ranked; decide)).1
example : (ofRanges [[⟨0, 2⟩, ⟨0, 2⟩], [⟨0, 1⟩, ⟨2, 5⟩]]).compactRanges =
    [[⟨0, 1⟩, ⟨0, 5⟩], [⟨1, 2⟩, ⟨0, 2⟩]] := by decide +kernel

end Marco.Props
