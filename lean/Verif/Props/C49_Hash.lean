import Verif.Props.C09_FromRanges
import Verif.Props.C14_Equality

/-!
# C49: equal index sets have equal hash codes

`hash_value` hashes the size, i.e. the sum of the sizes of the stored ranges.
-/

namespace Marco.Props
open Marco Spec IndexSet

/-- The full claim C49, on well-formed sets. -/
def C49_full : Prop := ∀ (k : Nat) (s t : IndexSet), SetOk k s → SetOk k t → s.eq t = true →
  s.hashKey = t.hashKey

/-- `{[0,10)}` is equal to the set built from `{[0,2), [0,10), [1,2)}` but 10 is hashed for the
former and 11 for the latter. -/
theorem C49_hash_false : ¬ C49_full := by
  intro h
  have h1 := h 1 (ofRanges [[⟨0, 10⟩]]) (ofRanges [[⟨0, 2⟩], [⟨0, 10⟩], [⟨1, 2⟩]])
    (ofRanges_spec (by unfold Ranked; decide)).1 (ofRanges_spec (by unfold Ranked; decide)).1
    (by decide +kernel)
  revert h1
  decide +kernel

/-- C49 for sets whose stored ranges are disjoint. Missing from `C49_full`: sets storing
overlapping ranges. -/
theorem C49_hash_partial (k : Nat) (s t : IndexSet) (hs : SetOk k s) (ht : SetOk k t)
    (hd : DisjL s.ranges) (hd' : DisjL t.ranges) (he : s.eq t = true) : s.hashKey = t.hashKey := by
  have hr : s.rank = t.rank := by
    by_contra hc
    unfold IndexSet.eq at he
    have : (s.rank != t.rank) = true := by simpa using hc
    rw [this] at he; simp at he
  have h := (C14_eq_partial k s t hs ht hr).1 he
  have hsz : s.size = t.size := by
    obtain ⟨l, c1, c2, c3⟩ := count_of_disj ht hd'
    exact count_unique (count_of_disj hs hd) ⟨l, c1, fun p => (c2 p).trans (h p).symm, c3⟩
  unfold hashKey
  have hz : ∀ {x : IndexSet}, x.isEmpty = true → x.size = 0 := by
    intro x hx
    have hn : x.root = none := by simpa [isEmpty] using hx
    simp [size, ranges_none hn]
  split_ifs with h1 h2 h2
  · rfl
  · rw [← hsz, hz h1]
  · rw [hsz, hz h2]
  · exact hsz

-- Equal sets stored differently, both with disjoint ranges.
example : (ofRanges [[⟨0, 3⟩, ⟨0, 4⟩]]).eq (ofRanges [[⟨0, 3⟩, ⟨0, 2⟩], [⟨0, 1⟩, ⟨2, 4⟩], [⟨1, 3⟩, ⟨2, 4⟩]])
    = true ∧ (ofRanges [[⟨0, 3⟩, ⟨0, 4⟩]]).hashKey = 12 := by decide +kernel

end Marco.Props
