import Verif.Lemmas.BulkLoad

/-!
# C15: tree search never misses or invents an element
-/

namespace Marco.Props
open Marco Spec RTree

/-- C15, stack search pruned by the boundaries (used by `contains`, `overlaps`, `intersect`):
whatever the tree shape, provided that node boundaries cover their descendants, the visited
objects are exactly the stored objects sharing a point with the query. -/
theorem C15_visit (k : Nat) (q : Box) (root : Node) (hq : Ranked k q) (hc : Covers k root)
    (o : Box) :
    o ∈ visit q root ↔ o ∈ root.objects ∧ ∃ p, InB p o ∧ InB p q := by
  rw [mem_visit hq hc]
  constructor
  · rintro ⟨h1, h2⟩
    exact ⟨h1, (overlaps_iff' (Covers.objects hc h1).1 hq).1 h2⟩
  · rintro ⟨h1, h2⟩
    exact ⟨h1, (overlaps_iff' (Covers.objects hc h1).1 hq).2 h2⟩

/-- C15, `walkOverlappingObjects`. -/
theorem C15_walk (k : Nat) (q : Box) (root : Node) (hq : Ranked k q) (hc : Covers k root)
    (o : Box) :
    o ∈ walkOverlappingObjects q root ↔ o ∈ root.objects ∧ ∃ p, InB p o ∧ InB p q := by
  unfold walkOverlappingObjects
  rw [mem_walkLoop hq _ _ (by simp [Node.weightL]) (by simpa using hc)]
  simp only [List.mem_singleton, exists_eq_left]
  constructor
  · rintro ⟨h1, h2⟩
    exact ⟨h1, (overlaps_iff' (Covers.objects hc h1).1 hq).1 h2⟩
  · rintro ⟨h1, h2⟩
    exact ⟨h1, (overlaps_iff' (Covers.objects hc h1).1 hq).2 h2⟩

/-- C15, simultaneous descent of two trees: the visited pairs are exactly the pairs of stored
objects that share a point. -/
theorem C15_pairs (k : Nat) (l r : Node) (hl : Covers k l) (hr : Covers k r) (a b : Box) :
    (a, b) ∈ visitPairs l r ↔ a ∈ l.objects ∧ b ∈ r.objects ∧ ∃ p, InB p a ∧ InB p b := by
  rw [mem_visitPairs hl hr]
  constructor
  · rintro ⟨h1, h2, h3⟩
    exact ⟨h1, h2, (overlaps_iff' (Covers.objects hl h1).1 (Covers.objects hr h2).1).1 h3⟩
  · rintro ⟨h1, h2, h3⟩
    exact ⟨h1, h2, (overlaps_iff' (Covers.objects hl h1).1 (Covers.objects hr h2).1).2 h3⟩

/-- A two-level tree used as concrete instance: two leaves with overlapping boundaries. -/
def sampleTree : Node :=
  .mk 2 [⟨0, 9⟩, ⟨0, 9⟩]
    [.mk 0 [⟨0, 6⟩, ⟨0, 5⟩] [] [[⟨0, 2⟩, ⟨0, 2⟩], [⟨5, 6⟩, ⟨4, 5⟩]],
     .mk 1 [⟨3, 9⟩, ⟨3, 9⟩] [] [[⟨3, 4⟩, ⟨3, 4⟩], [⟨6, 9⟩, ⟨8, 9⟩]]] []

/-- The sample tree satisfies the hypothesis of the theorems above. -/
theorem sampleTree_covers : Covers 2 sampleTree := by
  have sub : ∀ a b : Box, Box.containsBox b a = true ∧ b.length = a.length ∧
      (∀ r ∈ a, r.Valid) → SubB a b := fun a b h => (containsBox_iff b a h.2.1 h.2.2).1 h.1
  refine .mk ⟨by unfold Ranked; decide, by decide, by simp [sampleTree, Node.obs], ?_⟩ ?_
  · intro c hc
    simp only [sampleTree, Node.ch, List.mem_cons, List.not_mem_nil, or_false] at hc
    rcases hc with rfl | rfl <;> exact sub _ _ (by decide)
  · intro c hc
    simp only [sampleTree, Node.ch, List.mem_cons, List.not_mem_nil, or_false] at hc
    rcases hc with rfl | rfl
    · refine .mk ⟨by unfold Ranked; decide, by decide, ?_, by simp [Node.ch]⟩ (by simp [Node.ch])
      intro o ho
      simp only [Node.obs, List.mem_cons, List.not_mem_nil, or_false] at ho
      rcases ho with rfl | rfl <;> exact ⟨by unfold Ranked; decide, sub _ _ (by decide)⟩
    · refine .mk ⟨by unfold Ranked; decide, by decide, ?_, by simp [Node.ch]⟩ (by simp [Node.ch])
      intro o ho
      simp only [Node.obs, List.mem_cons, List.not_mem_nil, or_false] at ho
      rcases ho with rfl | rfl <;> exact ⟨by unfold Ranked; decide, sub _ _ (by decide)⟩

-- A query inside both boundaries that hits an object of one leaf only.
example : visit [⟨5, 6⟩, ⟨3, 5⟩] sampleTree = [[⟨5, 6⟩, ⟨4, 5⟩]] := by decide +kernel
example : walkOverlappingObjects [⟨1, 7⟩, ⟨1, 9⟩] sampleTree =
    [[⟨0, 2⟩, ⟨0, 2⟩], [⟨5, 6⟩, ⟨4, 5⟩], [⟨3, 4⟩, ⟨3, 4⟩], [⟨6, 9⟩, ⟨8, 9⟩]] := by decide +kernel
example : (visitPairs sampleTree sampleTree).length = 4 := by decide +kernel

end Marco.Props
