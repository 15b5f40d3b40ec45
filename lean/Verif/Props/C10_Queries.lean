import Verif.Lemmas.IndexSetOps

/-!
# C10: set queries are exact

For every well-formed index set (all boundaries minimal, `SetOk`), in particular the sets built by
`setFromRanges` (C09). `contains(set)` starts with a comparison of the two sizes, which is only
right when the ranges stored in the argument are disjoint; they may not be (C09), and then the
answer is wrong: `C10_containsSet_false`.
-/

namespace Marco.Props
open Marco Spec IndexSet

/-- `contains(point)`. -/
theorem C10_containsPoint (k : Nat) (s : IndexSet) (p : Point) (h : SetOk k s)
    (hp : p.length = k) (hk : 0 < k) : s.containsPoint p = true ↔ Has s p :=
  containsPoint_iff h hp hk

/-- `contains(box)` holds exactly when every point of the box is in the set. -/
theorem C10_containsBox (k : Nat) (s : IndexSet) (q : Box) (h : SetOk k s) (hq : Ranked k q) :
    s.containsBox q = true ↔ ∀ p, InB p q → Has s p := IndexSet.containsBox_iff h hq

/-- `overlaps(box)` holds exactly when some point is shared. -/
theorem C10_overlapsBox (k : Nat) (s : IndexSet) (q : Box) (h : SetOk k s) (hq : Ranked k q) :
    s.overlapsBox q = true ↔ ∃ p, Has s p ∧ InB p q := overlapsBox_iff h hq

/-- `overlaps(set)` holds exactly when some point is shared. -/
theorem C10_overlapsSet (k : Nat) (s t : IndexSet) (h : SetOk k s) (ht : SetOk k t) :
    s.overlapsSet t = true ↔ ∃ p, Has s p ∧ Has t p := overlapsSet_iff h ht

/-- The claim on `contains(set)`, in full. -/
def C10_containsSet_full : Prop := ∀ (k : Nat) (s t : IndexSet), SetOk k s → SetOk k t →
  (s.containsSet t = true ↔ ∀ p, Has t p → Has s p)

/-- `{[0,10)}` does not `contain` the index set built from `{[0,2), [0,10), [1,2)}`. -/
theorem C10_containsSet_false : ¬ C10_containsSet_full := by
  intro h
  have hr1 : ∀ r ∈ ([[⟨0, 10⟩]] : List Box), Ranked 1 r := by unfold Ranked; decide
  have hr2 : ∀ r ∈ ([[⟨0, 2⟩], [⟨0, 10⟩], [⟨1, 2⟩]] : List Box), Ranked 1 r := by
    unfold Ranked; decide
  obtain ⟨a1, _, a3, _⟩ := ofRanges_spec hr1
  obtain ⟨b1, _, b3, _⟩ := ofRanges_spec hr2
  have h1 := (h 1 _ _ a1 b1).2 (by
    intro p hp
    rw [b3] at hp
    rw [a3]
    cases p with
    | nil => simp [InL, InB] at hp
    | cons x xs =>
      simp only [InL, List.mem_cons, List.not_mem_nil, or_false, exists_eq_or_imp, exists_eq_left,
        Box.inB_cons_cons, InR] at hp ⊢
      obtain ⟨h1, h2⟩ | ⟨h1, h2⟩ | ⟨h1, h2⟩ := hp
      · exact ⟨by omega, h2⟩
      · exact ⟨by omega, h2⟩
      · exact ⟨by omega, h2⟩)
  have h2 : (ofRanges [[⟨0, 10⟩]]).containsSet (ofRanges [[⟨0, 2⟩], [⟨0, 10⟩], [⟨1, 2⟩]]) = false := by
    decide +kernel
  rw [h2] at h1
  simp at h1

/-- `contains(set)` holds exactly when the argument is a subset, provided the ranges stored in the
argument are pairwise disjoint. Missing from `C10_containsSet_full`: arguments whose stored ranges
overlap. -/
theorem C10_containsSet_partial (k : Nat) (s t : IndexSet) (hs : SetOk k s) (ht : SetOk k t)
    (hd : DisjL t.ranges) : s.containsSet t = true ↔ ∀ p, Has t p → Has s p :=
  containsSet_iff hs ht hd

/-- Even when the answer is wrong, a positive answer of `contains(set)` can be trusted. -/
theorem C10_containsSet_sound (k : Nat) (s t : IndexSet) (hs : SetOk k s) (ht : SetOk k t)
    (h : s.containsSet t = true) : ∀ p, Has t p → Has s p := by
  intro p hp
  have h' := h
  unfold containsSet at h'
  cases htr : t.root with
  | none => rw [Has, ranges_none htr] at hp; exact absurd hp (inL_nil p)
  | some r =>
    cases hsr : s.root with
    | none => simp [htr, hsr] at h'
    | some l =>
      simp only [htr, hsr] at h'
      split_ifs at h' 
      rw [pairLoop_iff l.weight r (ht.tight r htr) [l] (by simpa using (hs.tight l hsr).covers)] at h'
      rw [Has, ranges_some htr] at hp
      have := h' p hp
      simpa [UnderL, Has, ranges_some hsr] using this

-- A set of three two-dimensional boxes and its queries.
/-- The set used by the examples. -/
def sampleSet : IndexSet :=
  ofRanges [[⟨0, 3⟩, ⟨0, 3⟩], [⟨1, 5⟩, ⟨2, 4⟩], [⟨8, 9⟩, ⟨0, 1⟩]]
example : SetOk 2 sampleSet := (ofRanges_spec (by unfold Ranked; decide)).1
example : sampleSet.containsBox [⟨1, 3⟩, ⟨0, 4⟩] = true ∧
    sampleSet.containsBox [⟨1, 4⟩, ⟨0, 4⟩] = false ∧
    sampleSet.overlapsBox [⟨4, 9⟩, ⟨1, 3⟩] = true ∧
    sampleSet.overlapsBox [⟨5, 8⟩, ⟨0, 9⟩] = false ∧
    sampleSet.containsSet (ofRanges [[⟨8, 9⟩, ⟨0, 1⟩], [⟨1, 3⟩, ⟨1, 4⟩]]) = true ∧
    sampleSet.containsSet (ofRanges [[⟨8, 9⟩, ⟨0, 1⟩], [⟨1, 3⟩, ⟨1, 5⟩]]) = false := by
  decide +kernel

end Marco.Props
