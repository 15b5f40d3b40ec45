import Verif.Model.Matchable
import Verif.Lemmas.MCIM

/-!
# C28: matched and unmatched indices partition the matchable indices
-/

namespace Marco.Props
open Marco Spec IndexSet Matchable

/-- One update of the match information of a vertex. -/
inductive MatchOp where
  | add (s : IndexSet)
  | remove (s : IndexSet)
  | set (s : IndexSet)
  | drop (s : IndexSet)
  | mask (s : IndexSet)

/-- The code run by an update. -/
def MatchOp.run : MatchOp → Matchable → Matchable
  | .add s, m => m.addMatch s
  | .remove s, m => m.removeMatch s
  | .set s, m => m.setMatch s
  | .drop s, m => (m.removeIndices s).2
  | .mask s, m => m.withMask s

/-- The argument of an update: a well-formed set, which for the updates of the match information
and for the masks is made of indices of the vertex. -/
def MatchOp.Ok (k : Nat) (univ : Point → Prop) : MatchOp → Prop
  | .add s | .remove s | .set s | .mask s => SetOk k s ∧ ∀ p, Has s p → univ p
  | .drop s => SetOk k s

/-- The effect of an update on the indices of a vertex (`removeIndices` refuses to remove all of
them). -/
def MatchOp.univ (univ : Point → Prop) : MatchOp → Point → Prop
  | .add _ | .remove _ | .set _ => univ
  | .drop s => fun p => univ p ∧ ((∃ q, univ q ∧ ¬ Has s q) → ¬ Has s p)
  | .mask s => fun p => Has s p

/-- The effect of an update on the matched indices. -/
def MatchOp.matched (matched : Point → Prop) : MatchOp → Point → Prop
  | .add s => fun p => matched p ∨ Has s p
  | .remove s => fun p => matched p ∧ ¬ Has s p
  | .set s => fun p => Has s p
  | .drop _ | .mask _ => matched

/-- Histories of updates with legal arguments, starting from a vertex with the indices `s`;
`u` are the indices of the vertex and `a` says for each of them whether it has been matched last. -/
inductive History (k : Nat) (s : IndexSet) : (Point → Prop) → (Point → Prop) → Matchable → Prop
  | new : SetOk k s → History k s (fun p => Has s p) (fun _ => False) (Matchable.new s)
  | step {u a : Point → Prop} {m : Matchable} (op : MatchOp) : History k s u a m → op.Ok k u →
      History k s (op.univ u) (op.matched a) (op.run m)

/-- The sets stored in the vertex are well-formed and are the ones described by `u` and `a`. -/
structure MatchableIs (k : Nat) (u a : Point → Prop) (m : Matchable) : Prop where
  ok1 : SetOk k m.matchable
  ok2 : SetOk k m.matched
  ok3 : SetOk k m.unmatched
  is1 : ∀ p, Has m.matchable p ↔ u p
  is2 : ∀ p, Has m.matched p ↔ u p ∧ a p
  is3 : ∀ p, Has m.unmatched p ↔ u p ∧ ¬ a p

theorem isEmpty_iff_has {k : Nat} {s : IndexSet} (hs : SetOk k s) :
    s.isEmpty = true ↔ ∀ p, ¬ Has s p := by
  constructor
  · intro h p hp
    have hn : s.root = none := by simpa [isEmpty] using h
    simp [Has, ranges_none hn, InL] at hp
  · intro h
    have : s.ranges = [] := by
      by_contra hne
      obtain ⟨b, hb⟩ := List.exists_mem_of_ne_nil _ hne
      obtain ⟨p, hp⟩ := ranked_exists (ranges_ranked hs b hb)
      exact h p ⟨b, hb, hp⟩
    have := (ranges_eq_nil_iff hs).1 this
    simpa [isEmpty] using this

theorem matchable_step {k : Nat} {u a : Point → Prop} {m : Matchable} {op : MatchOp}
    (h : MatchableIs k u a m) (hop : op.Ok k u) :
    MatchableIs k (op.univ u) (op.matched a) (op.run m) := by
  obtain ⟨o1, o2, o3, i1, i2, i3⟩ := h
  cases op with
  | add s =>
    obtain ⟨a1, a2⟩ := union_spec o2 hop.1
    obtain ⟨b1, b2⟩ := minus_spec o3 hop.1
    have hs := hop.2
    refine ⟨o1, a1, b1, i1, fun p => ?_, fun p => ?_⟩
    · have := hs p
      simp only [MatchOp.run, addMatch, MatchOp.univ, MatchOp.matched, a2, i2]; tauto
    · simp only [MatchOp.run, addMatch, MatchOp.univ, MatchOp.matched, b2, i3]; tauto
  | remove s =>
    obtain ⟨a1, a2⟩ := minus_spec o2 hop.1
    obtain ⟨b1, b2⟩ := union_spec o3 hop.1
    have hs := hop.2
    refine ⟨o1, a1, b1, i1, fun p => ?_, fun p => ?_⟩
    · simp only [MatchOp.run, removeMatch, MatchOp.univ, MatchOp.matched, a2, i2]; tauto
    · have := hs p
      simp only [MatchOp.run, removeMatch, MatchOp.univ, MatchOp.matched, b2, i3]; tauto
  | set s =>
    obtain ⟨b1, b2⟩ := minus_spec o1 hop.1
    have hs := hop.2
    refine ⟨o1, hop.1, b1, i1, fun p => ?_, fun p => ?_⟩
    · have := hs p
      simp only [MatchOp.run, setMatch, MatchOp.univ, MatchOp.matched]; tauto
    · simp only [MatchOp.run, setMatch, MatchOp.univ, MatchOp.matched, b2, i1]
  | drop s =>
    obtain ⟨b1, b2⟩ := minus_spec o1 hop
    have he := isEmpty_iff_has b1
    simp only [b2, i1] at he
    simp only [MatchOp.run, removeIndices, MatchOp.univ, MatchOp.matched]
    split_ifs with hc
    · rw [he] at hc
      refine ⟨o1, o2, o3, fun p => ?_, fun p => ?_, fun p => ?_⟩ <;>
        simp only [i1, i2, i3] <;>
        have hn : ¬ ∃ q, u q ∧ ¬ Has s q := fun ⟨q, hq⟩ => hc q hq
      all_goals simp [hn]
    · have hn : ∃ q, u q ∧ ¬ Has s q := by
        by_contra hn
        exact hc (he.2 fun p hp => hn ⟨p, hp⟩)
      obtain ⟨c1, c2⟩ := C11_intersectSet k _ _ o2 b1
      obtain ⟨d1, d2⟩ := C11_intersectSet k _ _ o3 b1
      refine ⟨b1, c1, d1, fun p => ?_, fun p => ?_, fun p => ?_⟩
      · simp only [setMatchableIndices, b2, i1, hn, true_imp_iff]
      · simp only [setMatchableIndices, c2, b2, i1, i2, hn, true_imp_iff]; tauto
      · simp only [setMatchableIndices, d2, b2, i1, i3, hn, true_imp_iff]; tauto
  | mask s =>
    obtain ⟨c1, c2⟩ := C11_intersectSet k _ _ o2 hop.1
    have hs := hop.2
    have he := isEmpty_iff_has c1
    simp only [MatchOp.run, withMask, MatchOp.univ, MatchOp.matched]
    split_ifs with hc
    · rw [he] at hc
      simp only [c2, i2] at hc
      refine ⟨hop.1, setOk_empty k, hop.1, fun p => Iff.rfl, fun p => ?_, fun p => ?_⟩
      · have := hc p; have := hs p
        simp only [new, not_has_empty, false_iff]; tauto
      · have := hc p; have := hs p
        simp only [new]; tauto
    · obtain ⟨a1, a2⟩ := union_spec (setOk_empty k) c1
      obtain ⟨b1, b2⟩ := minus_spec hop.1 c1
      refine ⟨hop.1, a1, b1, fun p => Iff.rfl, fun p => ?_, fun p => ?_⟩
      · have := hs p
        simp only [addMatch, new, a2, c2, i2, not_has_empty, false_or]; tauto
      · have := hs p
        simp only [addMatch, new, b2, c2, i2]; tauto

theorem matchable_history {k : Nat} {s : IndexSet} {u a : Point → Prop} {m : Matchable}
    (h : History k s u a m) : MatchableIs k u a m := by
  induction h with
  | new hs =>
    exact ⟨hs, setOk_empty k, hs, fun p => Iff.rfl,
      fun p => by simp [Matchable.new, not_has_empty], fun p => by simp [Matchable.new]⟩
  | step op _ hop ih => exact matchable_step ih hop

/-- C28, for every history of updates: matched and unmatched are disjoint, their union is the set
of matchable indices, an index is matched exactly when the last update that mentions it matched it,
and `allComponentsMatched` tells whether all the indices are matched. -/
theorem C28_partition (k : Nat) (s : IndexSet) (u a : Point → Prop) (m : Matchable)
    (h : History k s u a m) :
    (∀ p, ¬ (Has m.matched p ∧ Has m.unmatched p)) ∧
    (∀ p, Has m.matchable p ↔ Has m.matched p ∨ Has m.unmatched p) ∧
    (∀ p, Has m.matchable p ↔ u p) ∧
    (∀ p, Has m.matched p ↔ u p ∧ a p) ∧
    (m.allComponentsMatched = true ↔ ∀ p, u p → a p) := by
  obtain ⟨_, _, o3, i1, i2, i3⟩ := matchable_history h
  refine ⟨fun p => ?_, fun p => ?_, i1, i2, ?_⟩
  · rw [i2, i3]; tauto
  · rw [i1, i2, i3]; tauto
  · unfold allComponentsMatched
    rw [isEmpty_iff_has o3]
    simp only [i3]
    exact forall_congr' fun p => by tauto

/-- A removal of indices that are not matchable, which `removeMatch` does not check, breaks the
partition: the hypothesis on the arguments cannot be dropped. -/
theorem C28_removeMatch_unchecked : ∃ (s r : IndexSet), SetOk 1 s ∧ SetOk 1 r ∧
    ∃ p, Has ((Matchable.new s).removeMatch r).unmatched p ∧
      ¬ Has ((Matchable.new s).removeMatch r).matchable p := by
  refine ⟨ofRanges [[⟨0, 3⟩]], ofRanges [[⟨7, 9⟩]], (ofRanges_spec (by unfold Ranked; decide)).1,
    (ofRanges_spec (by unfold Ranked; decide)).1, [7], ?_, ?_⟩
  · have h1 : SetOk 1 (ofRanges [[⟨0, 3⟩]]) := (ofRanges_spec (by unfold Ranked; decide)).1
    have h2 : SetOk 1 (ofRanges [[⟨7, 9⟩]]) := (ofRanges_spec (by unfold Ranked; decide)).1
    have h3 : Has (ofRanges [[⟨7, 9⟩]]) [7] := by
      rw [(ofRanges_spec (k := 1) (by unfold Ranked; decide)).2.2.1]
      exact ⟨_, List.mem_singleton.2 rfl, .cons (by unfold InR; decide) .nil⟩
    exact ((union_spec h1 h2).2 _).2 (Or.inr h3)
  · intro h
    have h' : Has (ofRanges [[⟨0, 3⟩]]) [7] := h
    rw [(ofRanges_spec (k := 1) (by unfold Ranked; decide)).2.2.1] at h'
    obtain ⟨b, hb, hp⟩ := h'
    rw [List.mem_singleton] at hb
    subst hb
    cases hp with
    | cons h1 _ => revert h1; unfold InR; decide

/-- `EquationVertex::removeIndices` is undefined behaviour whenever it has something to do. -/
theorem C28_equation_removeIndices_ub (k : Nat) (m : Matchable) (r : IndexSet)
    (hm : SetOk k m.matchable) (hr : SetOk k r) :
    m.removeIndicesEq r = none ↔ ∃ p, Has m.matchable p ∧ ¬ Has r p := by
  obtain ⟨b1, b2⟩ := minus_spec hm hr
  have he := isEmpty_iff_has b1
  simp only [b2] at he
  unfold removeIndicesEq
  split_ifs with hc
  · rw [he] at hc
    simp only [false_iff, not_exists]
    exact hc
  · simp only [true_iff]
    by_contra hn
    exact hc (he.2 fun p hp => hn ⟨p, hp⟩)

-- A concrete history: ten indices, four matched, one released, two dropped.
example : ∃ u a m, History 1 (ofRanges [[⟨0, 10⟩]]) u a m ∧
    m.matchable.points = [[1], [2], [3], [4]] ∧ m.matched.points = [[2], [4]] ∧
    m.unmatched.points = [[1], [3]] ∧ m.allComponentsMatched = false := by
  have hr : ∀ a b : Int, a < b → SetOk 1 (ofRanges [[⟨a, b⟩]]) ∧
      ∀ p, Has (ofRanges [[⟨a, b⟩]]) p ↔ ∃ x, p = [x] ∧ a ≤ x ∧ x < b := by
    intro a b hab
    obtain ⟨h1, _, h3, _⟩ := ofRanges_spec (k := 1) (rs := [[⟨a, b⟩]]) (by
      intro r h; rw [List.mem_singleton] at h; subst h
      exact ⟨⟨by simp, by intro r hr; rw [List.mem_singleton] at hr; subst hr; exact hab⟩, rfl⟩)
    refine ⟨h1, fun p => ?_⟩
    rw [h3]
    constructor
    · rintro ⟨b', hb, hp⟩
      rw [List.mem_singleton] at hb
      subst hb
      cases hp with
      | @cons r x rs xs h1 h2 => cases h2; exact ⟨x, rfl, h1⟩
    · rintro ⟨x, rfl, h⟩
      exact ⟨_, List.mem_singleton.2 rfl, .cons h .nil⟩
  have h0 := History.new (k := 1) (s := ofRanges [[⟨0, 10⟩]]) (hr 0 10 (by decide)).1
  have h1 := h0.step (.add (ofRanges [[⟨2, 6⟩]])) ⟨(hr 2 6 (by decide)).1, fun p hp => by
    rw [(hr 2 6 (by decide)).2] at hp
    obtain ⟨x, rfl, hx⟩ := hp
    exact ((hr 0 10 (by decide)).2 _).2 ⟨x, rfl, by omega⟩⟩
  have h2 := h1.step (.remove (ofRanges [[⟨3, 4⟩]])) ⟨(hr 3 4 (by decide)).1, fun p hp => by
    rw [(hr 3 4 (by decide)).2] at hp
    obtain ⟨x, rfl, hx⟩ := hp
    exact ((hr 0 10 (by decide)).2 _).2 ⟨x, rfl, by omega⟩⟩
  have h3 := h2.step (.drop (ofRanges [[⟨5, 7⟩]])) (hr 5 7 (by decide)).1
  have h4 := h3.step (.mask (ofRanges [[⟨1, 5⟩]])) ⟨(hr 1 5 (by decide)).1, fun p hp => by
    rw [(hr 1 5 (by decide)).2] at hp
    obtain ⟨x, rfl, hx⟩ := hp
    refine ⟨((hr 0 10 (by decide)).2 _).2 ⟨x, rfl, by omega⟩, fun _ h => ?_⟩
    rw [(hr 5 7 (by decide)).2] at h
    obtain ⟨y, hy, hh⟩ := h
    cases hy
    omega⟩
  exact ⟨_, _, _, h4, by decide +kernel⟩

end Marco.Props
