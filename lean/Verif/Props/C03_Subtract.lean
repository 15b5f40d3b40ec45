import Verif.Lemmas.Box

/-!
# C03: box subtraction is an exact disjoint partition
-/

namespace Marco.Props
open Marco Spec Box

theorem inR_subtract {r s : Range} (hr : r.Valid) (hs : s.Valid) (x : Int) :
    (∃ t ∈ r.subtract s, InR x t) ↔ InR x r ∧ ¬ InR x s := (C02_subtract r s hr hs).2.2 x

/-- `overlaps` on boxes of equal rank is sharing a point. -/
theorem overlaps_iff : ∀ (b c : Box), b.length = c.length → (∀ r ∈ b, r.Valid) →
    (∀ r ∈ c, r.Valid) → (overlaps b c = true ↔ ∃ p, InB p b ∧ InB p c)
  | [], [], _, _, _ => by simp [overlaps, inB_nil]
  | r :: rs, s :: ss, h, hb, hc => by
    have ih := overlaps_iff rs ss (by simpa using h) (fun r hr => hb r (by simp [hr]))
      (fun r hr => hc r (by simp [hr]))
    have h0 := C02_overlaps r s (hb r (by simp)) (hc s (by simp))
    have : overlaps (r :: rs) (s :: ss) = true ↔ r.overlaps s = true ∧ overlaps rs ss = true := by
      cases hrs : r.overlaps s <;> simp [overlaps, hrs]
    rw [this, h0, ih]
    constructor
    · rintro ⟨⟨x, h1, h2⟩, p, h3, h4⟩
      exact ⟨x :: p, by simp [h1, h3], by simp [h2, h4]⟩
    · rintro ⟨p, h1, h2⟩
      obtain ⟨x, xs, rfl, h3, h4⟩ := (inB_cons _ _ _).1 h1
      simp only [inB_cons_cons] at h2
      exact ⟨⟨x, h3, h2.1⟩, xs, h4, h2.2⟩
  | [], _ :: _, h, _, _ => by simp at h
  | _ :: _, [], h, _, _ => by simp at h

theorem overlaps_cons (r s : Range) (rs ss : Box) :
    overlaps (r :: rs) (s :: ss) = true ↔ r.overlaps s = true ∧ overlaps rs ss = true := by
  cases hrs : r.overlaps s <;> simp [overlaps, hrs]

/-- Loop invariant of the sweep. -/
theorem subtractLoop_spec : ∀ (b c : Box) (pre : Box), b.length = c.length →
    (∀ r ∈ b, r.Valid) → (∀ r ∈ c, r.Valid) → (∀ r ∈ pre, r.Valid) → overlaps b c = true →
    (∀ d ∈ subtractLoop pre b c, d.length = pre.length + b.length ∧ ∀ r ∈ d, r.Valid) ∧
    DisjL (subtractLoop pre b c) ∧
    (∀ p, InL p (subtractLoop pre b c) ↔
      ∃ q r, p = q ++ r ∧ InB q pre ∧ InB r b ∧ ¬ InB r c)
  | [], [], pre, _, _, _, _, _ => by
    simp [subtractLoop, DisjL, InL, inB_nil]
  | x :: xs, y :: ys, pre, h, hb, hc, hpre, hov => by
    have hx : x.Valid := hb x (by simp)
    have hy : y.Valid := hc y (by simp)
    have hxs : ∀ r ∈ xs, r.Valid := fun r hr => hb r (by simp [hr])
    have hys : ∀ r ∈ ys, r.Valid := fun r hr => hc r (by simp [hr])
    obtain ⟨hov1, hov2⟩ := (overlaps_cons _ _ _ _).1 hov
    obtain ⟨hIv, hI⟩ := C02_intersect x y hx hy hov1
    obtain ⟨hSv, hSd, hS⟩ := C02_subtract x y hx hy
    have hpre' : ∀ r ∈ pre ++ [x.intersect y], r.Valid := by
      intro r hr
      rcases List.mem_append.1 hr with hr | hr
      · exact hpre r hr
      · simp at hr; subst hr; exact hIv
    obtain ⟨i1, i2, i3⟩ := subtractLoop_spec xs ys (pre ++ [x.intersect y]) (by simpa using h)
      hxs hys hpre' hov2
    refine ⟨?_, ?_, ?_⟩
    · intro d hd
      simp only [subtractLoop, List.mem_append, List.mem_map] at hd
      rcases hd with ⟨t, ht, rfl⟩ | hd
      · refine ⟨by simp, ?_⟩
        intro r hr
        simp only [List.mem_append, List.mem_cons] at hr
        rcases hr with hr | rfl | hr
        · exact hpre r hr
        · exact hSv _ ht
        · exact hxs r hr
      · have := i1 d hd
        refine ⟨by simp at this ⊢; omega, this.2⟩
    · unfold DisjL at *
      simp only [subtractLoop]
      rw [List.pairwise_append]
      refine ⟨?_, i2, ?_⟩
      · rw [List.pairwise_map]
        refine hSd.imp ?_
        rintro a b hab p ⟨h1, h2⟩
        rw [inB_append] at h1
        obtain ⟨q, r, rfl, h3, h4⟩ := h1
        rw [inB_append' (inB_length h3)] at h2
        obtain ⟨z, zs, rfl, h5, _⟩ := (inB_cons _ _ _).1 h4
        have h6 := ((inB_cons_cons _ _ _ _).1 h2.2).1
        exact hab z ⟨h5, h6⟩
      · rintro a ha d hd p ⟨h1, h2⟩
        obtain ⟨t, ht, rfl⟩ := List.mem_map.1 ha
        obtain ⟨q, r, rfl, h3, h4, _⟩ := (i3 p).1 ⟨d, hd, h2⟩
        rw [inB_append] at h3
        obtain ⟨q1, q2, rfl, h5, h6⟩ := h3
        obtain ⟨z, zs, rfl, h7, h8⟩ := (inB_cons _ _ _).1 h6
        rw [inB_nil] at h8; subst h8
        rw [List.append_assoc, inB_append' (inB_length h5)] at h1
        simp only [List.cons_append, List.nil_append, inB_cons_cons] at h1
        exact ((hS z).1 ⟨t, ht, h1.2.1⟩).2 ((hI z).1 h7).2
    · intro p
      have hsplit : InL p (subtractLoop pre (x :: xs) (y :: ys)) ↔
          (∃ t ∈ x.subtract y, InB p (pre ++ t :: xs)) ∨
          InL p (subtractLoop (pre ++ [x.intersect y]) xs ys) := by
        simp only [InL, subtractLoop, List.mem_append, List.mem_map]
        constructor
        · rintro ⟨d, ⟨t, ht, rfl⟩ | hd, hp⟩
          · exact Or.inl ⟨t, ht, hp⟩
          · exact Or.inr ⟨d, hd, hp⟩
        · rintro (⟨t, ht, hp⟩ | ⟨d, hd, hp⟩)
          · exact ⟨_, Or.inl ⟨t, ht, rfl⟩, hp⟩
          · exact ⟨d, Or.inr hd, hp⟩
      rw [hsplit, i3]
      constructor
      · rintro (⟨t, ht, hp⟩ | ⟨q, r, rfl, h1, h2, h3⟩)
        · rw [inB_append] at hp
          obtain ⟨q, r, rfl, h1, h2⟩ := hp
          obtain ⟨z, zs, rfl, h3, h4⟩ := (inB_cons _ _ _).1 h2
          have := (hS z).1 ⟨t, ht, h3⟩
          exact ⟨q, z :: zs, rfl, h1, by simp [this.1, h4], by simp [this.2]⟩
        · rw [inB_append] at h1
          obtain ⟨q1, q2, rfl, h5, h6⟩ := h1
          obtain ⟨z, zs, rfl, h7, h8⟩ := (inB_cons _ _ _).1 h6
          rw [inB_nil] at h8; subst h8
          have := (hI z).1 h7
          exact ⟨q1, z :: r, by simp, h5, by simp [this.1, h2], by simp [h3]⟩
      · rintro ⟨q, r, rfl, h1, h2, h3⟩
        obtain ⟨z, zs, rfl, h4, h5⟩ := (inB_cons _ _ _).1 h2
        simp only [inB_cons_cons, not_and] at h3
        by_cases hz : InR z y
        · right
          refine ⟨q ++ [z], zs, by simp, ?_, h5, h3 hz⟩
          rw [inB_append' (inB_length h1)]
          refine ⟨h1, ?_⟩
          simp only [inB_cons_cons, inB_nil, and_true]
          exact (hI z).2 ⟨h4, hz⟩
        · left
          obtain ⟨t, ht, hzt⟩ := (hS z).2 ⟨h4, hz⟩
          refine ⟨t, ht, ?_⟩
          rw [inB_append' (inB_length h1)]
          exact ⟨h1, by simp [hzt, h5]⟩
  | [], _ :: _, _, h, _, _, _, _ => by simp at h
  | _ :: _, [], _, h, _, _, _, _ => by simp at h

/-- C03: `subtract` yields well-formed boxes of the same rank, pairwise disjoint, that cover
exactly the points of `b` outside `c`. -/
theorem C03_subtract_partition (b c : Box) (hb : b.Valid) (hc : c.Valid)
    (hr : b.length = c.length) :
    (∀ d ∈ b.subtract c, d.Valid ∧ d.length = b.length) ∧
    DisjL (b.subtract c) ∧
    (∀ p, InL p (b.subtract c) ↔ InB p b ∧ ¬ InB p c) := by
  unfold subtract
  by_cases hov : overlaps b c = true
  · obtain ⟨h1, h2, h3⟩ := subtractLoop_spec b c [] hr hb.2 hc.2 (by simp) hov
    simp only [hov, Bool.not_true, Bool.false_eq_true, if_false]
    refine ⟨?_, h2, ?_⟩
    · intro d hd
      have := h1 d hd
      simp only [List.length_nil, Nat.zero_add] at this
      refine ⟨⟨?_, this.2⟩, this.1⟩
      intro hn
      subst hn
      have := this.1
      simp at this
      exact hb.1 (List.length_eq_zero_iff.1 this.symm)
    · intro p
      rw [h3 p]
      constructor
      · rintro ⟨q, r, rfl, h4, h5, h6⟩
        rw [inB_nil] at h4; subst h4
        exact ⟨h5, h6⟩
      · rintro ⟨h4, h5⟩
        exact ⟨[], p, rfl, by simp [inB_nil], h4, h5⟩
  · have hov' : overlaps b c = false := by simpa using hov
    simp only [hov', Bool.not_false, if_true]
    refine ⟨by simpa using hb, by simp [DisjL], ?_⟩
    intro p
    rw [overlaps_iff b c hr hb.2 hc.2] at hov
    simp only [InL, List.mem_singleton, exists_eq_left]
    exact ⟨fun h => ⟨h, fun h' => hov ⟨p, h, h'⟩⟩, fun h => h.1⟩

/-- Subtracting a covering box leaves nothing. -/
theorem C03_subtract_covered (b c : Box) (hb : b.Valid) (hc : c.Valid)
    (hr : b.length = c.length) (hcov : ∀ p, InB p b → InB p c) : b.subtract c = [] := by
  obtain ⟨h1, _, h3⟩ := C03_subtract_partition b c hb hc hr
  cases hl : b.subtract c with
  | nil => rfl
  | cons d ds =>
    exfalso
    have hd : d ∈ b.subtract c := by simp [hl]
    obtain ⟨p, hp⟩ := exists_inB (h1 d hd).1.2
    have := (h3 p).1 ⟨d, hd, hp⟩
    exact this.2 (hcov p this.1)

/-- Subtracting a disjoint box leaves the box itself. -/
theorem C03_subtract_disjoint (b c : Box) (hb : b.Valid) (hc : c.Valid)
    (hr : b.length = c.length) (hd : Disj b c) : b.subtract c = [b] := by
  have : ¬ overlaps b c = true := by
    rw [overlaps_iff b c hr hb.2 hc.2]
    rintro ⟨p, hp⟩; exact hd p hp
  simp [subtract, this]

-- A concrete case meeting the hypotheses: a 3x3 square minus its centre gives four pieces.
example : Box.Valid [⟨0, 3⟩, ⟨0, 3⟩] ∧ Box.Valid [⟨1, 2⟩, ⟨1, 2⟩] ∧
    Box.subtract [⟨0, 3⟩, ⟨0, 3⟩] [⟨1, 2⟩, ⟨1, 2⟩] =
      [[⟨0, 1⟩, ⟨0, 3⟩], [⟨2, 3⟩, ⟨0, 3⟩], [⟨1, 2⟩, ⟨0, 1⟩], [⟨1, 2⟩, ⟨2, 3⟩]] := by decide
-- ... and concrete cases for the two corollaries.
example : Box.subtract [⟨1, 2⟩] [⟨0, 3⟩] = [] ∧ Box.subtract [⟨1, 2⟩] [⟨5, 6⟩] = [[⟨1, 2⟩]] := by
  decide

end Marco.Props
