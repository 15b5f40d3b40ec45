import Verif.Lemmas.IndexSetOps

/-!
# C12: dimension projections and extensions are exact
-/

namespace Marco.Props
open Marco Spec IndexSet

/-- The coordinates of a point selected by a filter (`llvm::BitVector`), in order. -/
def selectCoords (p : Point) (f : List Bool) : Point :=
  ((p.zip f).filter fun x => x.2).map fun x => x.1

theorem inB_take {b : Box} (hb : ∀ r ∈ b, r.Valid) (n : Nat) (q : Point) :
    InB q (b.take n) ↔ ∃ p, InB p b ∧ p.take n = q := by
  constructor
  · intro h
    obtain ⟨t, ht⟩ := Box.exists_inB (b := b.drop n) (fun r hr => hb r (List.mem_of_mem_drop hr))
    refine ⟨q ++ t, ?_, ?_⟩
    · have := Box.inB_append.2 ⟨q, t, rfl, h, ht⟩
      rwa [List.take_append_drop] at this
    · have hl := Box.inB_length h
      rw [List.length_take] at hl
      rcases Nat.lt_or_ge n b.length with h1 | h1
      · rw [List.take_append_of_le_length (by omega), List.take_of_length_le (by omega)]
      · have : b.drop n = [] := by simp [h1]
        rw [this, Box.inB_nil] at ht
        subst ht
        rw [List.append_nil, List.take_of_length_le (by omega)]
  · rintro ⟨p, hp, rfl⟩
    have e := List.take_append_drop n b
    rw [← e] at hp
    have hl : (b.take n).length = (p.take n).length := by
      have := Box.inB_length hp
      rw [e] at this
      simp [this]
    rw [← List.take_append_drop n p, Box.inB_append' hl] at hp
    exact hp.1

theorem inB_drop {b : Box} (hb : ∀ r ∈ b, r.Valid) (n : Nat) (q : Point) :
    InB q (b.drop n) ↔ ∃ p, InB p b ∧ p.drop n = q := by
  constructor
  · intro h
    obtain ⟨t, ht⟩ := Box.exists_inB (b := b.take n) (fun r hr => hb r (List.mem_of_mem_take hr))
    have hl := Box.inB_length ht
    rw [List.length_take] at hl
    refine ⟨t ++ q, ?_, ?_⟩
    · have := Box.inB_append.2 ⟨t, q, rfl, ht, h⟩
      rwa [List.take_append_drop] at this
    · rcases Nat.lt_or_ge n b.length with h1 | h1
      · have : t.length = n := by omega
        rw [← this, List.drop_left]
      · have : b.drop n = [] := by simp [h1]
        rw [this, Box.inB_nil] at h
        subst h
        rw [List.append_nil, List.drop_eq_nil_of_le (by omega)]
  · rintro ⟨p, hp, rfl⟩
    have e := List.take_append_drop n b
    rw [← e] at hp
    have hl : (b.take n).length = (p.take n).length := by
      have := Box.inB_length hp
      rw [e] at this
      simp [this]
    rw [← List.take_append_drop n p, Box.inB_append' hl] at hp
    exact hp.2

theorem inB_takeDims : ∀ (b : Box) (f : List Bool) (q : Point), b.length = f.length →
    (∀ r ∈ b, r.Valid) → (InB q (b.takeDims f) ↔ ∃ p, InB p b ∧ selectCoords p f = q)
  | [], [], q, _, _ => by
    simp [Box.takeDims, Box.inB_nil, selectCoords, eq_comm]
  | r :: rs, true :: fs, q, h, hv => by
    have ih := inB_takeDims rs fs
    have hv' : ∀ r ∈ rs, r.Valid := fun r hr => hv r (by simp [hr])
    have hl : rs.length = fs.length := by simpa using h
    simp only [Box.takeDims, if_true, Box.inB_cons]
    constructor
    · rintro ⟨x, xs, rfl, h1, h2⟩
      obtain ⟨p, hp, rfl⟩ := (ih xs hl hv').1 h2
      exact ⟨x :: p, ⟨x, p, rfl, h1, hp⟩, by simp [selectCoords]⟩
    · rintro ⟨_, ⟨x, p, rfl, h1, h2⟩, rfl⟩
      exact ⟨x, selectCoords p fs, by simp [selectCoords], h1, (ih _ hl hv').2 ⟨p, h2, rfl⟩⟩
  | r :: rs, false :: fs, q, h, hv => by
    have ih := inB_takeDims rs fs
    have hv' : ∀ r ∈ rs, r.Valid := fun r hr => hv r (by simp [hr])
    have hl : rs.length = fs.length := by simpa using h
    simp only [Box.takeDims, Bool.false_eq_true, if_false, Box.inB_cons]
    rw [ih q hl hv']
    constructor
    · rintro ⟨p, hp, rfl⟩
      exact ⟨r.b :: p, ⟨r.b, p, rfl, ⟨le_refl _, hv r (by simp)⟩, hp⟩, by simp [selectCoords]⟩
    · rintro ⟨_, ⟨x, p, rfl, h1, h2⟩, rfl⟩
      exact ⟨p, h2, by simp [selectCoords]⟩
  | [], _ :: _, _, h, _ => by simp at h
  | _ :: _, [], _, h, _ => by simp at h

theorem takeDims_valid : ∀ (b : Box) (f : List Bool), (∀ r ∈ b, r.Valid) →
    ∀ r ∈ b.takeDims f, r.Valid
  | [], f, _ => by simp [Box.takeDims]
  | _ :: _, [], _ => by simp [Box.takeDims]
  | r :: rs, f :: fs, h => by
    intro s hs
    have ih := takeDims_valid rs fs (fun r hr => h r (by simp [hr]))
    rw [Box.takeDims] at hs
    split_ifs at hs
    · rcases List.mem_cons.1 hs with rfl | hs
      · exact h _ (by simp)
      · exact ih s hs
    · exact ih s hs

theorem takeDims_length : ∀ (b : Box) (f : List Bool), b.length = f.length →
    (b.takeDims f).length = f.count true
  | [], [], _ => by simp [Box.takeDims]
  | r :: rs, f :: fs, h => by
    have ih := takeDims_length rs fs (by simpa using h)
    cases f <;> simp [Box.takeDims, ih]
  | [], _ :: _, h => by simp at h
  | _ :: _, [], h => by simp at h

/-- Mapping every stored range with a box operation that computes the image of the points under
`g`. -/
theorem projection {k m : Nat} {s : IndexSet} (hs : SetOk k s) (F : Box → Box) (g : Point → Point)
    (hF : ∀ b, Ranked k b → Ranked m (F b))
    (hg : ∀ b, Ranked k b → ∀ q, InB q (F b) ↔ ∃ p, InB p b ∧ g p = q) :
    SetOk m (if s.isEmpty then s else ofRanges (s.ranges.map F)) ∧
    ∀ q, Has (if s.isEmpty then s else ofRanges (s.ranges.map F)) q ↔ ∃ p, Has s p ∧ g p = q := by
  split_ifs with h
  · have hn : s.root = none := by simpa [isEmpty] using h
    refine ⟨⟨by simp [hn], by simp [hn]⟩, fun q => ?_⟩
    simp [Has, ranges_none hn, InL]
  · have hr := ranges_ranked hs
    have hr' : ∀ r ∈ s.ranges.map F, Ranked m r := by
      intro r h
      obtain ⟨b, hb, rfl⟩ := List.mem_map.1 h
      exact hF b (hr b hb)
    obtain ⟨h1, _, h3, _⟩ := ofRanges_spec hr'
    refine ⟨h1, fun q => ?_⟩
    rw [h3]
    constructor
    · rintro ⟨r, hr1, hq⟩
      obtain ⟨b, hb, rfl⟩ := List.mem_map.1 hr1
      obtain ⟨p, hp, e⟩ := (hg b (hr b hb) q).1 hq
      exact ⟨p, ⟨b, hb, hp⟩, e⟩
    · rintro ⟨p, ⟨b, hb, hp⟩, e⟩
      exact ⟨F b, List.mem_map.2 ⟨b, hb, rfl⟩, (hg b (hr b hb) q).2 ⟨p, hp, e⟩⟩

/-- `slice(BitVector)` / `takeDimensions`. -/
theorem C12_takeDims (k : Nat) (s : IndexSet) (f : List Bool) (hs : SetOk k s) (hf : f.length = k)
    (hsome : true ∈ f) :
    SetOk (f.count true) (s.takeDims f) ∧
    ∀ q, Has (s.takeDims f) q ↔ ∃ p, Has s p ∧ selectCoords p f = q := by
  refine projection hs (fun r => r.takeDims f) (fun p => selectCoords p f) ?_ ?_
  · intro b hb
    have hl := takeDims_length b f (hb.2.trans hf.symm)
    refine ⟨⟨?_, takeDims_valid b f hb.1.2⟩, hl⟩
    intro h
    rw [h] at hl
    have := List.count_pos_iff.2 hsome
    simp at hl; omega
  · intro b hb q
    exact inB_takeDims b f q (hb.2.trans hf.symm) hb.1.2

theorem ranked_take {k n : Nat} {b : Box} (hb : Ranked k b) (h0 : 0 < n) (hn : n ≤ k) :
    Ranked n (b.take n) := by
  have hl : (b.take n).length = n := by rw [List.length_take, hb.2]; omega
  refine ⟨⟨?_, fun r hr => hb.1.2 r (List.mem_of_mem_take hr)⟩, hl⟩
  intro h; rw [h] at hl; simp at hl; omega

theorem ranked_drop {k n : Nat} {b : Box} (hb : Ranked k b) (hn : n < k) :
    Ranked (k - n) (b.drop n) := by
  have hl : (b.drop n).length = k - n := by rw [List.length_drop, hb.2]
  refine ⟨⟨?_, fun r hr => hb.1.2 r (List.mem_of_mem_drop hr)⟩, hl⟩
  intro h; rw [h] at hl; simp at hl; omega

/-- `takeFirstDimensions`. -/
theorem C12_takeFirst (k n : Nat) (s : IndexSet) (hs : SetOk k s) (h0 : 0 < n) (hn : n ≤ k) :
    SetOk n (s.takeFirst n) ∧ ∀ q, Has (s.takeFirst n) q ↔ ∃ p, Has s p ∧ p.take n = q :=
  projection hs (fun r => r.takeFirst n) (fun p => p.take n)
    (fun _ hb => ranked_take hb h0 hn) (fun _ hb q => inB_take hb.1.2 n q)

/-- `takeLastDimensions`. -/
theorem C12_takeLast (k n : Nat) (s : IndexSet) (hs : SetOk k s) (h0 : 0 < n) (hn : n ≤ k) :
    SetOk n (s.takeLast n) ∧ ∀ q, Has (s.takeLast n) q ↔ ∃ p, Has s p ∧ p.drop (k - n) = q := by
  refine projection hs (fun r => r.takeLast n) (fun p => p.drop (k - n)) ?_ ?_
  · intro b hb
    have := ranked_drop hb (n := k - n) (by omega)
    rw [show k - (k - n) = n by omega] at this
    simpa [Box.takeLast, hb.2] using this
  · intro b hb q
    simp only [Box.takeLast, hb.2]
    exact inB_drop hb.1.2 (k - n) q

/-- `dropFirstDimensions`. -/
theorem C12_dropFirst (k n : Nat) (s : IndexSet) (hs : SetOk k s) (hn : n < k) :
    SetOk (k - n) (s.dropFirst n) ∧ ∀ q, Has (s.dropFirst n) q ↔ ∃ p, Has s p ∧ p.drop n = q :=
  projection hs (fun r => r.dropFirst n) (fun p => p.drop n)
    (fun _ hb => ranked_drop hb hn) (fun _ hb q => inB_drop hb.1.2 n q)

/-- `dropLastDimensions`. -/
theorem C12_dropLast (k n : Nat) (s : IndexSet) (hs : SetOk k s) (hn : n < k) :
    SetOk (k - n) (s.dropLast n) ∧ ∀ q, Has (s.dropLast n) q ↔ ∃ p, Has s p ∧ p.take (k - n) = q := by
  refine projection hs (fun r => r.dropLast n) (fun p => p.take (k - n)) ?_ ?_
  · intro b hb
    simpa [Box.dropLast, hb.2] using ranked_take hb (n := k - n) (by omega) (by omega)
  · intro b hb q
    simp only [Box.dropLast, hb.2]
    exact inB_take hb.1.2 (k - n) q

theorem ranked_append {k m : Nat} {a b : Box} (ha : Ranked k a) (hb : Ranked m b) :
    Ranked (k + m) (a ++ b) := by
  refine ⟨⟨?_, ?_⟩, by simp [ha.2, hb.2]⟩
  · intro h
    exact ha.1.1 (List.append_eq_nil_iff.1 h).1
  · intro r hr
    rcases List.mem_append.1 hr with h | h
    · exact ha.1.2 r h
    · exact hb.1.2 r h

/-- `append`: the Cartesian product. -/
theorem C12_append (k m : Nat) (s t : IndexSet) (hs : SetOk k s) (ht : SetOk m t) :
    SetOk (k + m) (s.append t) ∧
    ∀ x, Has (s.append t) x ↔ ∃ p q, Has s p ∧ Has t q ∧ x = p ++ q := by
  unfold IndexSet.append
  split_ifs with h
  · have hn : s.root = none := by simpa [isEmpty] using h
    refine ⟨⟨by simp [hn], by simp [hn]⟩, fun q => ?_⟩
    simp [Has, ranges_none hn, InL]
  · have hr : ∀ r ∈ s.ranges.flatMap fun r => t.ranges.map fun q => r.append q,
        Ranked (k + m) r := by
      intro r h
      obtain ⟨a, ha, h⟩ := List.mem_flatMap.1 h
      obtain ⟨b, hb, rfl⟩ := List.mem_map.1 h
      exact ranked_append (ranges_ranked hs a ha) (ranges_ranked ht b hb)
    obtain ⟨h1, _, h3, _⟩ := ofRanges_spec hr
    refine ⟨h1, fun x => ?_⟩
    rw [h3]
    constructor
    · rintro ⟨r, hr1, hx⟩
      obtain ⟨a, ha, h⟩ := List.mem_flatMap.1 hr1
      obtain ⟨b, hb, rfl⟩ := List.mem_map.1 h
      obtain ⟨p, q, rfl, hp, hq⟩ := Box.inB_append.1 hx
      exact ⟨p, q, ⟨a, ha, hp⟩, ⟨b, hb, hq⟩, rfl⟩
    · rintro ⟨p, q, ⟨a, ha, hp⟩, ⟨b, hb, hq⟩, rfl⟩
      exact ⟨a.append b, List.mem_flatMap.2 ⟨a, ha, List.mem_map.2 ⟨b, hb, rfl⟩⟩,
        Box.inB_append.2 ⟨p, q, rfl, hp, hq⟩⟩

/-- `prepend`: the Cartesian product, the dimensions of the argument first. -/
theorem C12_prepend (k m : Nat) (s t : IndexSet) (hs : SetOk k s) (ht : SetOk m t) :
    SetOk (m + k) (s.prepend t) ∧
    ∀ x, Has (s.prepend t) x ↔ ∃ p q, Has s p ∧ Has t q ∧ x = q ++ p := by
  unfold IndexSet.prepend
  split_ifs with h
  · have hn : s.root = none := by simpa [isEmpty] using h
    refine ⟨⟨by simp [hn], by simp [hn]⟩, fun q => ?_⟩
    simp [Has, ranges_none hn, InL]
  · have hr : ∀ r ∈ s.ranges.flatMap fun r => t.ranges.map fun q => r.prepend q,
        Ranked (m + k) r := by
      intro r h
      obtain ⟨a, ha, h⟩ := List.mem_flatMap.1 h
      obtain ⟨b, hb, rfl⟩ := List.mem_map.1 h
      exact ranked_append (ranges_ranked ht b hb) (ranges_ranked hs a ha)
    obtain ⟨h1, _, h3, _⟩ := ofRanges_spec hr
    refine ⟨h1, fun x => ?_⟩
    rw [h3]
    constructor
    · rintro ⟨r, hr1, hx⟩
      obtain ⟨a, ha, h⟩ := List.mem_flatMap.1 hr1
      obtain ⟨b, hb, rfl⟩ := List.mem_map.1 h
      obtain ⟨q, p, rfl, hq, hp⟩ := Box.inB_append.1 hx
      exact ⟨p, q, ⟨a, ha, hp⟩, ⟨b, hb, hq⟩, rfl⟩
    · rintro ⟨p, q, ⟨a, ha, hp⟩, ⟨b, hb, hq⟩, rfl⟩
      exact ⟨a.prepend b, List.mem_flatMap.2 ⟨a, ha, List.mem_map.2 ⟨b, hb, rfl⟩⟩,
        Box.inB_append.2 ⟨q, p, rfl, hq, hp⟩⟩

-- Concrete instances (a set of rank 3).
/-- The set used by the examples. -/
def sampleSet12 : IndexSet := ofRanges [[⟨0, 3⟩, ⟨0, 3⟩, ⟨7, 8⟩], [⟨1, 5⟩, ⟨2, 4⟩, ⟨5, 9⟩]]
example : SetOk 3 sampleSet12 := (ofRanges_spec (by unfold Ranked; decide)).1
example : (sampleSet12.takeDims [true, false, true]).size = 17 ∧
    (sampleSet12.takeFirst 2).size = 15 ∧ (sampleSet12.takeLast 1).size = 4 ∧
    (sampleSet12.dropFirst 2).ranges = (sampleSet12.takeLast 1).ranges ∧
    (sampleSet12.append (ofRanges [[⟨0, 2⟩]])).size = 2 * sampleSet12.size ∧
    (sampleSet12.prepend (ofRanges [[⟨0, 2⟩]])).rank = 4 := by decide +kernel

end Marco.Props
