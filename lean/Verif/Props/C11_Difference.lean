import Verif.Props.C18_Remove

/-!
# C11: the difference

`operator-` copies the set and removes in place from the copy, so that it is wrong where `operator-=`
is (C18). The operand itself is unchanged, as the copy shares no nodes with it.
-/

namespace Marco.Props
open Marco Spec RTree IndexSet

theorem differenceBox_eq (C : Cfg) (fuel : Nat) (s : IndexSet) (q : Box) :
    differenceBox C fuel s q = removeBox C fuel s q := by
  show (removeBox C fuel s q >>= fun r => Except.ok r) = _
  cases removeBox C fuel s q <;> rfl

theorem differenceSet_eq (C : Cfg) (fuel : Nat) (s t : IndexSet) :
    differenceSet C fuel s t = removeSet C fuel s t := by
  show (removeSet C fuel s t >>= fun r => Except.ok r) = _
  cases removeSet C fuel s t <;> rfl

/-- C11 for `operator-` of a box. -/
def C11_difference_full : Prop := ∀ (k : Nat) (ops : List UpdateOp), (∀ o ∈ ops, o.Valid k) →
  ∀ fuel s, runUpdates cfg fuel IndexSet.empty ops = .ok s → ∀ (q : Box), Ranked k q → ∀ s',
    differenceBox cfg fuel s q = .ok s' → ∀ p : Point, p.length = k → 0 < k →
      (s'.containsPoint p = true ↔ s.containsPoint p = true ∧ ¬ InB p q)

theorem C11_difference_false : ¬ C11_difference_full := fun h =>
  C18_points_left_false fun k ops hv fuel s hs q hq s' hr =>
    h k ops hv fuel s hs q hq s' (by rw [differenceBox_eq]; exact hr)

/-- **C11**, the difference with a box: if the set is stored in one leaf or every leaf that the box
overlaps has enough objects with a point outside of it, the difference has exactly the points of the
set that are not in the box.

Missing: the differences that leave too few objects in a leaf, where this is false in general. -/
theorem C11_difference_partial {C : Cfg} {k fuel : Nat} (hC : AnyChoice C)
    (hook : C.hook = insertionHook) {s : IndexSet} (hs : StoredOk k s) {q : Box} (hq : Ranked k q)
    (h : RootLeaf s ∨ LeavesStay C.mn q s) :
    ∃ s', differenceBox C fuel s q = .ok s' ∧ ∀ p : Point, p.length = k → 0 < k →
      (s'.containsPoint p = true ↔ s.containsPoint p = true ∧ ¬ InB p q) := by
  rw [differenceBox_eq]
  exact C18_exact_partial hC hook hs hq h

/-- **C11**, the difference with a set, under the hypothesis of `C18_set_exact_partial`. -/
theorem C11_differenceSet_partial {C : Cfg} {k fuel : Nat} (hC : AnyChoice C)
    (hook : C.hook = insertionHook) {s t : IndexSet} (hs : StoredOk k s) (ht : SetOk k t)
    (h : ∀ pre b s', (∀ x ∈ b :: pre, x ∈ t.ranges) → removeBoxes C fuel s pre = .ok s' →
      RootLeaf s' ∨ LeavesStay C.mn b s') :
    ∃ s', differenceSet C fuel s t = .ok s' ∧ ∀ p : Point, p.length = k → 0 < k →
      (s'.containsPoint p = true ↔ s.containsPoint p = true ∧ t.containsPoint p = false) := by
  rw [differenceSet_eq]
  exact C18_set_exact_partial hC hook hs ht h

/-- **C11**, what holds of every difference with a set that is computed without undefined
behaviour. -/
theorem C11_differenceSet_bounds_partial {C : Cfg} {k fuel : Nat} (hC : AnyChoice C)
    (hook : C.hook = insertionHook) {s s' t : IndexSet} (hs : StoredOk k s) (ht : SetOk k t)
    (h : differenceSet C fuel s t = .ok s') : ∀ p : Point, p.length = k → 0 < k →
      (s.containsPoint p = true → t.containsPoint p = false → s'.containsPoint p = true) ∧
      (s'.containsPoint p = true → s.containsPoint p = true) := by
  rw [differenceSet_eq] at h
  exact (C18_set_partial hC hook hs ht h).2.2

-- The examples beside the theorems of C18 are instances; one more, with its result.
example : StoredOk 1 (single [⟨0, 10⟩]) ∧ RootLeaf (single [⟨0, 10⟩]) ∧
    (match differenceBox cfg 100 (single [⟨0, 10⟩]) [⟨3, 5⟩] with
      | .ok s => s.ranges == [[⟨0, 3⟩], [⟨5, 10⟩]]
      | _ => false) = true := by
  refine ⟨?_, ?_, by decide +kernel⟩
  · have h : insertObject cfg 0 IndexSet.empty [⟨0, 10⟩] = .ok (single [⟨0, 10⟩]) := by
      unfold insertObject
      simp [IndexSet.empty, RTree.insert, single, cfg, insertionHook_single]
      rfl
    exact (insertObject_spec cfg_anyChoice.sound (cfg_hookOk 1) storedOk_empty
      (by simp [Ranked, Box.Valid, Range.Valid]) h).1
  · rintro t ⟨⟩
    rfl

end Marco.Props
