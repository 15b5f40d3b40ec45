import Verif.Props.C09_FromRanges

/-!
# C11: intersection and complement are exact

(The difference `operator-` copies the set and removes in place, see C18.)
-/

namespace Marco.Props
open Marco Spec IndexSet

/-- `intersect(box)`. -/
theorem C11_intersectBox (k : Nat) (s : IndexSet) (q : Box) (hs : SetOk k s) (hq : Ranked k q) :
    SetOk k (s.intersectBox q) ∧ ∀ p, Has (s.intersectBox q) p ↔ Has s p ∧ InB p q := by
  unfold intersectBox
  cases hr : s.root with
  | none => exact ⟨hs, fun p => by simp [Has, ranges_none hr, InL]⟩
  | some n =>
    have hn := hs.covers n hr
    simp only
    split_ifs with hb
    · refine ⟨⟨by simp [emptyCopy], by simp [emptyCopy]⟩, fun p => ?_⟩
      simp only [Has, emptyCopy, ranges, inL_nil, false_iff, hr]
      rintro ⟨⟨o, ho, hp⟩, hpq⟩
      rw [Bool.not_eq_true', ← Bool.not_eq_true, RTree.overlaps_iff' (AllNodes.self hn).bd hq] at hb
      exact hb ⟨p, (RTree.Covers.objects hn ho).2 p hp, hpq⟩
    · have hrk : ∀ r ∈ (RTree.visit q n).map fun o => q.intersect o, Ranked k r := by
        intro r h
        obtain ⟨o, ho, rfl⟩ := List.mem_map.1 h
        rw [RTree.mem_visit hq hn] at ho
        have hor := (RTree.Covers.objects hn ho.1).1
        refine (ranked_intersect hq hor ?_).1
        obtain ⟨p, h1, h2⟩ := (RTree.overlaps_iff' hor hq).1 ho.2
        exact (RTree.overlaps_iff' hq hor).2 ⟨p, h2, h1⟩
      obtain ⟨h1, _, h3, _⟩ := ofRanges_spec hrk
      refine ⟨h1, fun p => ?_⟩
      rw [h3, Has, ranges_some hr]
      constructor
      · rintro ⟨b, hb', hp⟩
        obtain ⟨o, ho, rfl⟩ := List.mem_map.1 hb'
        rw [RTree.mem_visit hq hn] at ho
        have hor := (RTree.Covers.objects hn ho.1).1
        obtain ⟨p', h4, h5⟩ := (RTree.overlaps_iff' hor hq).1 ho.2
        have := ((ranked_intersect hq hor ((RTree.overlaps_iff' hq hor).2 ⟨p', h5, h4⟩)).2 p).1 hp
        exact ⟨⟨o, ho.1, this.2⟩, this.1⟩
      · rintro ⟨⟨o, ho, hp⟩, hpq⟩
        have hor := (RTree.Covers.objects hn ho).1
        refine ⟨q.intersect o, List.mem_map.2 ⟨o, ?_, rfl⟩, ?_⟩
        · exact (RTree.mem_visit hq hn o).2 ⟨ho, (RTree.overlaps_iff' hor hq).2 ⟨p, hp, hpq⟩⟩
        · exact ((ranked_intersect hq hor ((RTree.overlaps_iff' hq hor).2 ⟨p, hpq, hp⟩)).2 p).2
            ⟨hpq, hp⟩

/-- `intersect(set)`. -/
theorem C11_intersectSet (k : Nat) (s t : IndexSet) (hs : SetOk k s) (ht : SetOk k t) :
    SetOk k (s.intersectSet t) ∧ ∀ p, Has (s.intersectSet t) p ↔ Has s p ∧ Has t p := by
  unfold intersectSet
  cases hr : s.root with
  | none => exact ⟨hs, fun p => by simp [Has, ranges_none hr, InL]⟩
  | some l =>
    cases hr' : t.root with
    | none =>
      refine ⟨⟨by simp [emptyCopy], by simp [emptyCopy]⟩, fun p => ?_⟩
      simp [Has, emptyCopy, ranges, inL_nil, hr']
    | some r =>
      have hl := hs.covers l hr
      have hrr := ht.covers r hr'
      have key : ∀ a b, (a, b) ∈ RTree.visitPairs l r → a ∈ l.objects ∧ b ∈ r.objects ∧
          Ranked k (a.intersect b) ∧ ∀ p, InB p (a.intersect b) ↔ InB p a ∧ InB p b := by
        intro a b hab
        rw [RTree.mem_visitPairs hl hrr] at hab
        obtain ⟨h1, h2⟩ := ranked_intersect (RTree.Covers.objects hl hab.1).1
          (RTree.Covers.objects hrr hab.2.1).1 hab.2.2
        exact ⟨hab.1, hab.2.1, h1, h2⟩
      have hrk : ∀ x ∈ (RTree.visitPairs l r).map fun p => p.1.intersect p.2, Ranked k x := by
        intro x h
        obtain ⟨⟨a, b⟩, ho, rfl⟩ := List.mem_map.1 h
        exact (key a b ho).2.2.1
      obtain ⟨h1, _, h3, _⟩ := ofRanges_spec hrk
      refine ⟨h1, fun p => ?_⟩
      simp only
      rw [h3, Has, Has, ranges_some hr, ranges_some hr']
      constructor
      · rintro ⟨x, hx, hp⟩
        obtain ⟨⟨a, b⟩, ho, rfl⟩ := List.mem_map.1 hx
        obtain ⟨k1, k2, _, k4⟩ := key a b ho
        exact ⟨⟨a, k1, ((k4 p).1 hp).1⟩, ⟨b, k2, ((k4 p).1 hp).2⟩⟩
      · rintro ⟨⟨a, ha, hp⟩, ⟨b, hb, hq⟩⟩
        have hm : (a, b) ∈ RTree.visitPairs l r := (RTree.mem_visitPairs hl hrr a b).2
          ⟨ha, hb, (RTree.overlaps_iff' (RTree.Covers.objects hl ha).1
            (RTree.Covers.objects hrr hb).1).2 ⟨p, hp, hq⟩⟩
        exact ⟨a.intersect b, List.mem_map.2 ⟨(a, b), hm, rfl⟩,
          ((key a b hm).2.2.2 p).2 ⟨hp, hq⟩⟩

/-- `complement(box)`: the points of the box that are not in the set, stored as disjoint ranges. -/
theorem C11_complement (k : Nat) (s : IndexSet) (q : Box) (hs : SetOk k s) (hq : Ranked k q) :
    SetOk k (s.complement q) ∧ (∀ p, Has (s.complement q) p ↔ InB p q ∧ ¬ Has s p) ∧
    DisjL (s.complement q).ranges := by
  unfold complement
  split_ifs with h
  · have hn : s.root = none := by simpa [isEmpty] using h
    have hq' : ∀ r ∈ [q], Ranked k r := by simpa using hq
    obtain ⟨h1, h2, h3, _⟩ := ofRanges_spec hq'
    refine ⟨h1, fun p => ?_, ?_⟩
    · rw [h3]; simp [InL, Has, ranges_none hn]
    · exact (disjL_perm (h2.trans (nonOverlapping_disjoint hq' (by simp [DisjL])))).2
        (by simp [DisjL])
  · have hn : s.ranges ≠ [] := by
      rw [Ne, ranges_eq_nil_iff hs]
      simpa [isEmpty] using h
    obtain ⟨c1, c2, c3, _⟩ := carve_complete hs hn hq
    obtain ⟨h1, h2, h3, _⟩ := ofRanges_spec c1
    exact ⟨h1, fun p => (h3 p).trans (c3 p),
      (disjL_perm (h2.trans (nonOverlapping_disjoint c1 c2))).2 c2⟩

-- Concrete instances.
/-- The set used by the examples. -/
def sampleSet11 : IndexSet := ofRanges [[⟨0, 3⟩, ⟨0, 3⟩], [⟨1, 5⟩, ⟨2, 4⟩], [⟨8, 9⟩, ⟨0, 1⟩]]
example : SetOk 2 sampleSet11 ∧ Ranked 2 [⟨2, 9⟩, ⟨0, 3⟩] :=
  ⟨(ofRanges_spec (by unfold Ranked; decide)).1, by unfold Ranked; decide⟩
example : (sampleSet11.intersectBox [⟨2, 9⟩, ⟨0, 3⟩]).size = 6 ∧
    (sampleSet11.complement [⟨2, 9⟩, ⟨0, 3⟩]).size = 15 ∧
    (sampleSet11.intersectSet (ofRanges [[⟨2, 9⟩, ⟨0, 1⟩], [⟨3, 9⟩, ⟨3, 6⟩]])).size = 4 := by
  decide +kernel

end Marco.Props
