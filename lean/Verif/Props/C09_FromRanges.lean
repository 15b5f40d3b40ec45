import Verif.Lemmas.IndexSetOps

/-!
# C09: building an index set from a list of boxes is exact

The points are exact for every list. The stored ranges are *not* always disjoint
(`setFromRanges` only compares a range with the trailing run of ranges overlapping it in some
dimension), so the size may be too large: `C09_disjoint_false`. They are disjoint when the given
boxes are, and for sets built from points, whatever their order and repetitions.
-/

namespace Marco.Props
open Marco Spec IndexSet

/-- The full claim C09. -/
def C09_full : Prop := ∀ (k : Nat) (rs : List Box), (∀ r ∈ rs, Ranked k r) →
  (∀ p, Has (ofRanges rs) p ↔ InL p rs) ∧ DisjL (ofRanges rs).ranges ∧
  CountIs (fun p => InL p rs) (ofRanges rs).size

/-- The stored ranges of the set built from `{[0,2), [0,10), [1,2)}` (lib/Modeling/IndexSet.cpp:
145-192): the point 1 is stored twice. -/
theorem C09_disjoint_false : ¬ C09_full := by
  intro h
  have h1 := (h 1 [[⟨0, 2⟩], [⟨0, 10⟩], [⟨1, 2⟩]] (by unfold Ranked; decide)).2.1
  have e : (ofRanges [[⟨0, 2⟩], [⟨0, 10⟩], [⟨1, 2⟩]]).ranges = [[⟨0, 2⟩], [⟨2, 10⟩], [⟨1, 2⟩]] := by
    decide +kernel
  rw [e] at h1
  unfold DisjL at h1
  simp only [List.pairwise_cons] at h1
  refine h1.1 [⟨1, 2⟩] (by simp) [1] ⟨?_, ?_⟩ <;> simp [InB, InR]

/-- The size reported for that set is 11, for 10 points. -/
example : (ofRanges [[⟨0, 2⟩], [⟨0, 10⟩], [⟨1, 2⟩]]).size = 11 := by decide +kernel

/-! ### Disjoint inputs -/

theorem diffStep_disjoint {k : Nat} {cur o : Box} (hc : Ranked k cur) (ho : Ranked k o)
    (h : Disj cur o) : diffStep [cur] o = [cur] := by
  unfold diffStep
  have : cur.overlaps o = false := by
    rw [← Bool.not_eq_true, RTree.overlaps_iff' hc ho]
    rintro ⟨p, hp⟩; exact h p hp
  simp [this]

theorem foldl_diffStep_disjoint {k : Nat} {cur : Box} (hc : Ranked k cur) : ∀ (os : List Box),
    (∀ o ∈ os, Ranked k o) → (∀ o ∈ os, Disj cur o) → os.foldl diffStep [cur] = [cur]
  | [], _, _ => rfl
  | o :: os, hr, hd => by
    rw [List.foldl_cons, diffStep_disjoint hc (hr o (by simp)) (hd o (by simp))]
    exact foldl_diffStep_disjoint hc os (fun x hx => hr x (by simp [hx]))
      (fun x hx => hd x (by simp [hx]))

theorem addSorted_disjoint {k : Nat} {acc : List Box} {cur : Box} (ha : ∀ d ∈ acc, Ranked k d)
    (hc : Ranked k cur) (hd : ∀ o ∈ acc, Disj cur o) :
    (addSorted acc cur).Perm (acc ++ [cur]) := by
  unfold addSorted
  split_ifs with h
  · have : acc = [] := by simpa using h
    subst this; simp
  · set idx := acc.length - trailing acc cur
    simp only
    rw [foldl_diffStep_disjoint hc (acc.drop idx) (fun o ho => ha o (List.mem_of_mem_drop ho))
      (fun o ho => hd o (List.mem_of_mem_drop ho))]
    refine ((sortBoxes_perm _).append_left (acc.take idx)).trans ?_
    rw [← List.append_assoc, List.take_append_drop]

theorem foldl_addSorted_disjoint {k : Nat} : ∀ (rs acc : List Box), (∀ d ∈ acc, Ranked k d) →
    (∀ d ∈ rs, Ranked k d) → DisjL (acc ++ rs) → (rs.foldl addSorted acc).Perm (acc ++ rs)
  | [], acc, _, _, _ => by simp
  | r :: rs, acc, ha, hr, hd => by
    have hd' := disjL_append.1 hd
    have h1 : (addSorted acc r).Perm (acc ++ [r]) := addSorted_disjoint ha (hr r (by simp))
      (fun o ho => disj_symm (hd'.2.2 o ho r (by simp)))
    have h2 : ((acc ++ [r]) ++ rs) = acc ++ r :: rs := by simp
    have h3 : (addSorted acc r ++ rs).Perm (acc ++ r :: rs) := by
      rw [← h2]; exact h1.append_right rs
    rw [List.foldl_cons]
    refine (foldl_addSorted_disjoint rs _ ?_ (fun d h => hr d (by simp [h])) ?_).trans h3
    · intro d hd
      rcases List.mem_append.1 (h1.mem_iff.1 hd) with h | h
      · exact ha d h
      · have : d = r := by simpa using h
        rw [this]; exact hr r (by simp)
    · exact (disjL_perm h3).2 hd

theorem nonOverlapping_disjoint {k : Nat} {rs : List Box} (hr : ∀ r ∈ rs, Ranked k r)
    (hd : DisjL rs) : (nonOverlapping rs).Perm rs := by
  have hp := sortBoxes_perm rs
  have := foldl_addSorted_disjoint (k := k) (sortBoxes rs) [] (by simp)
    (fun d h => hr d (hp.mem_iff.1 h)) (by simpa using (disjL_perm hp).2 hd)
  rw [List.nil_append] at this
  exact List.Perm.trans this hp

/-! ### Points -/

theorem box_le_trans {a b c : Box} (h1 : Box.lt b a = false) (h2 : Box.lt c b = false) :
    Box.lt c a = false := by
  rw [← Bool.not_eq_true] at *
  intro h
  rcases C05_box.total b a with h3 | h3 | h3
  · exact h1 h3
  · subst h3; exact h2 h
  · exact h2 (C05_box.trans _ _ _ h h3)

theorem box_le_total (a b : Box) : Box.lt b a = false ∨ Box.lt a b = false := by
  cases h : Box.lt b a
  · exact Or.inl rfl
  · exact Or.inr (C05_box.asymm _ _ h)

theorem sortBoxes_sorted (l : List Box) : (sortBoxes l).Pairwise fun a b => Box.lt b a = false := by
  unfold sortBoxes
  have : Std.Total (fun a b : Box => Box.lt b a = false) := ⟨box_le_total⟩
  have : IsTrans Box (fun a b : Box => Box.lt b a = false) := ⟨fun _ _ _ => box_le_trans⟩
  exact List.pairwise_insertionSort _ l

theorem sortBoxes_eq_self {l : List Box} (h : l.Pairwise fun a b => Box.lt a b = true) :
    sortBoxes l = l := by
  unfold sortBoxes
  apply List.Pairwise.insertionSort_eq
  exact h.imp fun {a b} hab => C05_box.asymm _ _ hab

/-- Boxes of one point. -/
def Unit1 (k : Nat) (b : Box) : Prop := ∃ p : Point, p.length = k ∧ b = Box.ofPoint p

theorem ofPoint_inj {p q : Point} (h : Box.ofPoint p = Box.ofPoint q) : p = q :=
  (inB_ofPoint q p).1 (h ▸ (inB_ofPoint p p).2 rfl)

theorem unit_disj {k : Nat} {a b : Box} (ha : Unit1 k a) (hb : Unit1 k b) (h : a ≠ b) :
    Disj a b := by
  obtain ⟨p, _, rfl⟩ := ha
  obtain ⟨q, _, rfl⟩ := hb
  rintro x ⟨h1, h2⟩
  rw [inB_ofPoint] at h1 h2
  exact h (by rw [← h1, ← h2])

theorem anyDim_self {k : Nat} {b : Box} (hb : Ranked k b) : b.anyDimensionOverlaps b = true := by
  obtain ⟨⟨h1, h2⟩, _⟩ := hb
  cases b with
  | nil => exact absurd rfl h1
  | cons r rs =>
    have : r.overlaps r = true := by
      have := h2 r (by simp)
      unfold Range.Valid at this
      simp [Range.overlaps]; omega
    simp [Box.anyDimensionOverlaps, this]

/-- One step of the loop on one-point boxes, in increasing order: a repeated point changes nothing,
a new one is put last. -/
theorem addSorted_unit {k : Nat} (hk : 0 < k) {acc : List Box} {cur : Box}
    (ha : ∀ d ∈ acc, Unit1 k d) (hc : Unit1 k cur)
    (hs : acc.Pairwise fun a b => Box.lt a b = true) (hle : ∀ d ∈ acc, Box.lt cur d = false) :
    addSorted acc cur = if cur ∈ acc then acc else acc ++ [cur] := by
  have hr : ∀ {d}, Unit1 k d → Ranked k d := by
    rintro d ⟨p, hp, rfl⟩; exact ofPoint_ranked hp hk
  unfold addSorted
  split_ifs with h hm hm
  · have : acc = [] := by simpa using h
    subst this; simp at hm
  · have : acc = [] := by simpa using h
    subst this; simp
  · -- the point is there already: it is the last one
    have hne : acc ≠ [] := by rintro rfl; simp at hm
    obtain ⟨init, last, rfl⟩ : ∃ i l, acc = i ++ [l] :=
      ⟨acc.dropLast, acc.getLast hne, (List.dropLast_append_getLast hne).symm⟩
    have hlast : last = cur := by
      rcases List.mem_append.1 hm with h1 | h1
      · have := (List.pairwise_append.1 hs).2.2 cur h1 last (by simp)
        rw [hle last (by simp)] at this
        simp at this
      · exact (by simpa using h1 : cur = last).symm
    subst hlast
    set idx := (init ++ [last]).length - trailing (init ++ [last]) last with hidx
    have htr : 1 ≤ trailing (init ++ [last]) last := by
      unfold trailing
      simp [anyDim_self (hr hc)]
    have hle' : idx ≤ init.length := by
      rw [hidx]; simp only [List.length_append, List.length_singleton]; omega
    have hin : last ∈ (init ++ [last]).drop idx := by
      rw [List.drop_append_of_le_length hle']; simp
    have hdr : ∀ o ∈ (init ++ [last]).drop idx, Ranked k o :=
      fun o ho => hr (ha o (List.mem_of_mem_drop ho))
    obtain ⟨i1, i2⟩ := foldl_diffStep ((init ++ [last]).drop idx) [last] (by simpa using hr hc) hdr
    have hnil : ((init ++ [last]).drop idx).foldl diffStep [last] = [] := by
      rw [eq_nil_of_ranked i1]
      intro p hp
      rw [i2] at hp
      apply hp.2
      exact ⟨last, hin, by simpa [InL] using hp.1⟩
    simp only
    rw [hnil, List.append_nil, sortBoxes_eq_self (hs.sublist (List.drop_sublist _ _)),
      List.take_append_drop]
  · set idx := acc.length - trailing acc cur
    simp only
    have hd : ∀ o ∈ acc, Disj cur o := fun o ho => unit_disj hc (ha o ho) (fun e => hm (e ▸ ho))
    rw [foldl_diffStep_disjoint (hr hc) (acc.drop idx)
      (fun o ho => hr (ha o (List.mem_of_mem_drop ho))) (fun o ho => hd o (List.mem_of_mem_drop ho))]
    rw [sortBoxes_eq_self, ← List.append_assoc, List.take_append_drop]
    rw [List.pairwise_append]
    refine ⟨hs.sublist (List.drop_sublist _ _), by simp, ?_⟩
    intro a haa b hb
    have : b = cur := by simpa using hb
    subst this
    have ham := List.mem_of_mem_drop haa
    rcases C05_box.total a b with h1 | h1 | h1
    · exact h1
    · subst h1; exact absurd ham hm
    · rw [hle a ham] at h1; simp at h1

theorem foldl_addSorted_unit {k : Nat} (hk : 0 < k) : ∀ (rs acc : List Box),
    (∀ d ∈ acc, Unit1 k d) → (∀ d ∈ rs, Unit1 k d) →
    acc.Pairwise (fun a b => Box.lt a b = true) →
    (rs.Pairwise fun a b => Box.lt b a = false) → (∀ r ∈ rs, ∀ d ∈ acc, Box.lt r d = false) →
    (rs.foldl addSorted acc).Pairwise (fun a b => Box.lt a b = true) ∧
    (∀ d ∈ rs.foldl addSorted acc, Unit1 k d)
  | [], acc, ha, _, hs, _, _ => ⟨hs, ha⟩
  | r :: rs, acc, ha, hr, hs, hsr, hle => by
    rw [List.foldl_cons, addSorted_unit hk ha (hr r (by simp)) hs (hle r (by simp))]
    rw [List.pairwise_cons] at hsr
    split_ifs with hm
    · exact foldl_addSorted_unit hk rs acc ha (fun d h => hr d (by simp [h])) hs hsr.2
        (fun x hx => hle x (by simp [hx]))
    · apply foldl_addSorted_unit hk rs _ ?_ (fun d h => hr d (by simp [h])) ?_ hsr.2 ?_
      · intro d hd
        rcases List.mem_append.1 hd with h | h
        · exact ha d h
        · have : d = r := by simpa using h
          rw [this]; exact hr r (by simp)
      · rw [List.pairwise_append]
        refine ⟨hs, by simp, ?_⟩
        intro a ham b hb
        have : b = r := by simpa using hb
        subst this
        rcases C05_box.total a b with h1 | h1 | h1
        · exact h1
        · subst h1; exact absurd ham hm
        · rw [hle b (by simp) a ham] at h1; simp at h1
      · intro x hx d hd
        rcases List.mem_append.1 hd with h | h
        · exact hle x (by simp [hx]) d h
        · have : d = r := by simpa using h
          rw [this]; exact hsr.1 x hx

theorem nonOverlapping_points {k : Nat} (hk : 0 < k) {rs : List Box} (hr : ∀ r ∈ rs, Unit1 k r) :
    DisjL (nonOverlapping rs) := by
  have hp := sortBoxes_perm rs
  obtain ⟨h1, h2⟩ := foldl_addSorted_unit hk (sortBoxes rs) [] (by simp)
    (fun d h => hr d (hp.mem_iff.1 h)) (by simp) (sortBoxes_sorted rs) (by simp)
  unfold DisjL nonOverlapping
  refine List.Pairwise.imp_of_mem ?_ h1
  intro a b ha hb hab
  apply unit_disj (h2 a ha) (h2 b hb)
  rintro rfl
  rw [C05_box.irrefl] at hab
  simp at hab

theorem count_of_disj {k : Nat} {s : IndexSet} (_ : SetOk k s) (hd : DisjL s.ranges) :
    CountIs (Has s) s.size :=
  ⟨enumL s.ranges, enumL_nodup hd, fun _ => mem_enumL, by rw [enumL_length, size_eq]⟩

/-- C09, the part that holds. For every list of boxes of one rank: the set is well formed and
contains exactly the points of the boxes. The stored ranges are disjoint and the size is the number
of points (a) when the boxes are pairwise disjoint and (b) when the set is built from points, in any
order and with any repetitions. Missing from `C09_full`: disjointness and size for boxes that
overlap each other (false, see `C09_disjoint_false`). -/
theorem C09_fromRanges_partial (k : Nat) :
    (∀ rs : List Box, (∀ r ∈ rs, Ranked k r) →
      SetOk k (ofRanges rs) ∧ (∀ p, Has (ofRanges rs) p ↔ InL p rs) ∧
      (DisjL rs → DisjL (ofRanges rs).ranges ∧
        CountIs (fun p => InL p rs) (ofRanges rs).size)) ∧
    (0 < k → ∀ ps : List Point, (∀ p ∈ ps, p.length = k) →
      (∀ p, Has (ofPoints ps) p ↔ p ∈ ps) ∧ DisjL (ofPoints ps).ranges ∧
      CountIs (fun p => p ∈ ps) (ofPoints ps).size) := by
  constructor
  · intro rs hr
    obtain ⟨h1, h2, h3, _⟩ := ofRanges_spec hr
    refine ⟨h1, h3, fun hd => ?_⟩
    have hd' : DisjL (ofRanges rs).ranges :=
      (disjL_perm (h2.trans (nonOverlapping_disjoint hr hd))).2 hd
    refine ⟨hd', ?_⟩
    obtain ⟨l, c1, c2, c3⟩ := count_of_disj h1 hd'
    exact ⟨l, c1, fun p => (c2 p).trans (h3 p), c3⟩
  · intro hk ps hps
    have hu : ∀ r ∈ ps.map Box.ofPoint, Unit1 k r := by
      intro r hr
      obtain ⟨p, hp, rfl⟩ := List.mem_map.1 hr
      exact ⟨p, hps p hp, rfl⟩
    have hr : ∀ r ∈ ps.map Box.ofPoint, Ranked k r := by
      intro r h
      obtain ⟨p, hp, rfl⟩ := hu r h
      exact ofPoint_ranked hp hk
    obtain ⟨h1, h2, h3, _⟩ := ofRanges_spec hr
    have h3' : ∀ p, Has (ofPoints ps) p ↔ p ∈ ps := by
      intro p
      rw [ofPoints, h3]
      simp [InL, inB_ofPoint]
    have hd' : DisjL (ofPoints ps).ranges := (disjL_perm h2).2 (nonOverlapping_points hk hu)
    refine ⟨h3', hd', ?_⟩
    obtain ⟨l, c1, c2, c3⟩ := count_of_disj h1 hd'
    exact ⟨l, c1, fun p => (c2 p).trans (h3' p), c3⟩

-- Overlapping and repeated two-dimensional boxes; repeated points.
example : (∀ r ∈ ([[⟨0, 3⟩, ⟨0, 3⟩], [⟨1, 5⟩, ⟨2, 4⟩], [⟨0, 3⟩, ⟨0, 3⟩]] : List Box), Ranked 2 r) ∧
    (ofRanges [[⟨0, 3⟩, ⟨0, 3⟩], [⟨1, 5⟩, ⟨2, 4⟩], [⟨0, 3⟩, ⟨0, 3⟩]]).size = 15 ∧
    (ofPoints [[1, 2], [0, 5], [1, 2]]).size = 2 := by
  refine ⟨by unfold Ranked; decide, by decide +kernel, by decide +kernel⟩
example : DisjL [[⟨0, 3⟩], [⟨3, 5⟩]] := by
  simp only [DisjL, List.pairwise_cons, List.mem_singleton, forall_eq, List.not_mem_nil,
    false_imp_iff, forall_const, List.Pairwise.nil, and_self, and_true, Disj]
  rintro p ⟨h1, h2⟩
  cases p with
  | nil => simp [InB] at h1
  | cons x xs => simp [InR] at h1 h2; omega

end Marco.Props
