import Verif.Lemmas.IndexSetOps

/-!
# C14: equality of index sets is equality of point sets

`operator==` compares the ranks remembered by the two sets first, also when they are empty, so that
two empty sets with different histories are different: `C14_eq_false`. For sets of the same
remembered rank (in particular all non-empty sets of the same rank) it is exact.
-/

namespace Marco.Props
open Marco Spec IndexSet

/-- The full claim C14, on well-formed sets of one rank. -/
def C14_full : Prop := ∀ (k : Nat) (s t : IndexSet), SetOk k s → SetOk k t →
  (s.eq t = true ↔ ∀ p, Has s p ↔ Has t p)

/-- The intersection of `{[0,1)}` with `[5,6)` is empty but differs from `IndexSet()`. -/
theorem C14_eq_false : ¬ C14_full := by
  intro h
  have h1 := (h 1 ((ofRanges [[⟨0, 1⟩]]).intersectBox [⟨5, 6⟩]) empty
    ⟨by intro n hn
        have : ((ofRanges [[⟨0, 1⟩]]).intersectBox [⟨5, 6⟩]).root.isNone = true := by decide +kernel
        rw [hn] at this; simp at this,
     fun hn => by
        have : ((ofRanges [[⟨0, 1⟩]]).intersectBox [⟨5, 6⟩]).root.isSome = false := by
          decide +kernel
        rw [this] at hn; simp at hn⟩
    ⟨by simp [empty], by simp [empty]⟩).2 (by
      intro p
      have : ((ofRanges [[⟨0, 1⟩]]).intersectBox [⟨5, 6⟩]).ranges = [] := by decide +kernel
      rw [Has, this]
      simp [Has, ranges, empty])
  have h2 : ((ofRanges [[⟨0, 1⟩]]).intersectBox [⟨5, 6⟩]).eq empty = false := by decide +kernel
  rw [h2] at h1
  simp at h1

/-- C14 for sets remembering the same rank. Missing from `C14_full`: pairs of empty sets (or an
empty set and a set of another rank) whose remembered ranks differ. -/
theorem C14_eq_partial (k : Nat) (s t : IndexSet) (hs : SetOk k s) (ht : SetOk k t)
    (hr : s.rank = t.rank) : s.eq t = true ↔ ∀ p, Has s p ↔ Has t p := by
  unfold IndexSet.eq
  have : (s.rank != t.rank) = false := by simp [hr]
  rw [this]
  simp only [Bool.false_eq_true, if_false, Bool.and_eq_true]
  rw [containsTree_iff hs ht, containsTree_iff ht hs]
  constructor
  · rintro ⟨h1, h2⟩ p; exact ⟨h2 p, h1 p⟩
  · intro h; exact ⟨fun p => (h p).2, fun p => (h p).1⟩

/-- For two non-empty sets the remembered rank is that of the points: equality is exact. -/
theorem C14_eq_nonempty (k : Nat) (s t : IndexSet) (hs : SetOk k s) (ht : SetOk k t)
    (h1 : s.isEmpty = false) (h2 : t.isEmpty = false) :
    s.eq t = true ↔ ∀ p, Has s p ↔ Has t p := by
  refine C14_eq_partial k s t hs ht ?_
  rw [hs.rank (by simpa [isEmpty, ← Option.isSome_iff_ne_none, Option.isNone_eq_false_iff] using h1), ht.rank (by simpa [isEmpty, Option.isNone_eq_false_iff] using h2)]

-- The same points, stored differently.
example : (ofRanges [[⟨0, 3⟩, ⟨0, 4⟩]]).eq (ofRanges [[⟨0, 3⟩, ⟨0, 2⟩], [⟨0, 1⟩, ⟨1, 4⟩], [⟨1, 3⟩, ⟨2, 4⟩]])
      = true ∧
    (ofRanges [[⟨0, 3⟩, ⟨0, 4⟩]]).eq (ofRanges [[⟨0, 3⟩, ⟨0, 2⟩], [⟨0, 1⟩, ⟨1, 4⟩]]) = false ∧
    (ofRanges [[⟨0, 3⟩, ⟨0, 4⟩]]).isEmpty = false := by decide +kernel
example : SetOk 2 (ofRanges [[⟨0, 3⟩, ⟨0, 4⟩]]) := (ofRanges_spec (by unfold Ranked; decide)).1

end Marco.Props
