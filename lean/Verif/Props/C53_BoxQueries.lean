import Verif.Lemmas.IndexSet

/-!
# C53: the queries on boxes are exact
-/

namespace Marco.Props
open Marco Spec Box

/-- `contains(Point)`, for a point of the rank of the box. -/
theorem C53_containsPoint : ∀ (b : Box) (p : Point), b.length = p.length →
    (b.containsPoint p = true ↔ InB p b)
  | [], [], _ => by simp [containsPoint, inB_nil]
  | r :: rs, x :: xs, h => by
    have ih := C53_containsPoint rs xs (by simpa using h)
    rw [inB_cons_cons, ← ih, ← C02_containsInt]
    cases hc : r.containsInt x <;> simp [containsPoint, hc]
  | [], _ :: _, h => by simp at h
  | _ :: _, [], h => by simp at h

example : Box.containsPoint [⟨0, 3⟩, ⟨5, 7⟩] [2, 5] = true ∧
    Box.containsPoint [⟨0, 3⟩, ⟨5, 7⟩] [2, 7] = false ∧
    Box.containsPoint [⟨0, 3⟩, ⟨5, 7⟩] [3, 5] = false := by decide

/-- The hypothesis on the rank is needed, and the code does not check it
(lib/Modeling/MultidimensionalRange.cpp:115): a point of the wrong rank may be contained. -/
theorem C53_containsPoint_rank : ∃ (b : Box) (p : Point), b.Valid ∧ b.containsPoint p = true ∧
    ¬ InB p b :=
  ⟨[⟨0, 3⟩, ⟨5, 7⟩], [1], by decide, by decide, fun h => by simpa using inB_length h⟩

/-- `contains(box)` is inclusion. -/
theorem C53_containsBox (b c : Box) (hc : c.Valid) (h : b.length = c.length) :
    b.containsBox c = true ↔ ∀ p, InB p c → InB p b :=
  Marco.containsBox_iff b c h hc.2

example : Box.containsBox [⟨0, 3⟩, ⟨5, 7⟩] [⟨1, 3⟩, ⟨5, 6⟩] = true ∧
    Box.containsBox [⟨0, 3⟩, ⟨5, 7⟩] [⟨1, 3⟩, ⟨5, 8⟩] = false := by decide

/-- `overlaps` is sharing a point. -/
theorem C53_overlaps (b c : Box) (hb : b.Valid) (hc : c.Valid) (h : b.length = c.length) :
    b.overlaps c = true ↔ ∃ p, InB p b ∧ InB p c :=
  overlaps_iff b c h hb.2 hc.2

example : Box.overlaps [⟨0, 3⟩, ⟨5, 7⟩] [⟨2, 9⟩, ⟨0, 6⟩] = true ∧
    Box.overlaps [⟨0, 3⟩, ⟨5, 7⟩] [⟨2, 9⟩, ⟨0, 5⟩] = false := by decide

/-- `anyDimensionOverlaps`: in some dimension the ranges share an integer. -/
theorem C53_anyDimensionOverlaps : ∀ (b c : Box), (∀ r ∈ b, r.Valid) → (∀ r ∈ c, r.Valid) →
    (b.anyDimensionOverlaps c = true ↔
      ∃ (i : Nat) (r s : Range) (x : Int), b[i]? = some r ∧ c[i]? = some s ∧ InR x r ∧ InR x s)
  | r :: rs, s :: ss, hb, hc => by
    have ih := C53_anyDimensionOverlaps rs ss (fun r hr => hb r (by simp [hr]))
      (fun r hr => hc r (by simp [hr]))
    have h0 := C02_overlaps r s (hb r (by simp)) (hc s (by simp))
    have e : anyDimensionOverlaps (r :: rs) (s :: ss) = true ↔
        r.overlaps s = true ∨ anyDimensionOverlaps rs ss = true := by
      cases hrs : r.overlaps s <;> simp [anyDimensionOverlaps, hrs]
    rw [e, h0, ih]
    constructor
    · rintro (⟨x, h1, h2⟩ | ⟨i, r', s', x, h1, h2, h3⟩)
      · exact ⟨0, r, s, x, rfl, rfl, h1, h2⟩
      · exact ⟨i + 1, r', s', x, h1, h2, h3⟩
    · rintro ⟨i, r', s', x, h1, h2, h3, h4⟩
      cases i with
      | zero =>
        simp only [List.getElem?_cons_zero, Option.some.injEq] at h1 h2
        subst h1 h2
        exact Or.inl ⟨x, h3, h4⟩
      | succ i => exact Or.inr ⟨i, r', s', x, by simpa using h1, by simpa using h2, h3, h4⟩
  | [], _, _, _ => by simp [anyDimensionOverlaps]
  | _ :: _, [], _, _ => by simp [anyDimensionOverlaps]

example : Box.anyDimensionOverlaps [⟨0, 3⟩, ⟨5, 7⟩] [⟨3, 9⟩, ⟨0, 6⟩] = true ∧
    Box.anyDimensionOverlaps [⟨0, 3⟩, ⟨5, 7⟩] [⟨3, 9⟩, ⟨0, 5⟩] = false := by decide

/-- `intersect` of overlapping boxes is a box with exactly the common points. -/
theorem C53_intersect (b c : Box) (hb : b.Valid) (hc : c.Valid) (h : b.length = c.length)
    (ho : b.overlaps c = true) :
    (b.intersect c).Valid ∧ ∀ p, InB p (b.intersect c) ↔ InB p b ∧ InB p c := by
  obtain ⟨h1, h2⟩ := ranked_intersect (k := b.length) ⟨hb, rfl⟩ ⟨hc, h.symm⟩ ho
  exact ⟨h1.1, h2⟩

example : Box.intersect [⟨0, 3⟩, ⟨5, 7⟩] [⟨2, 9⟩, ⟨0, 6⟩] = [⟨2, 3⟩, ⟨5, 6⟩] := by decide

/-- `operator==`: the boxes have the same points. -/
theorem C53_eq (b c : Box) (hb : b.Valid) (hc : c.Valid) :
    b.eqBox c = true ↔ ∀ p, InB p b ↔ InB p c := by
  rw [box_eq_iff]
  constructor
  · rintro rfl p; rfl
  · intro h
    have hl : b.length = c.length := by
      obtain ⟨p, hp⟩ := exists_inB hb.2
      exact (inB_length hp).trans (inB_length ((h p).1 hp)).symm
    have key : ∀ (b c : Box), b.length = c.length → (∀ r ∈ b, r.Valid) → (∀ r ∈ c, r.Valid) →
        (∀ p, InB p b ↔ InB p c) → b = c := by
      clear h hl hb hc b c
      intro b
      induction b with
      | nil =>
        intro c hl _ _ _
        exact (List.length_eq_zero_iff.1 (by simpa using hl.symm)).symm
      | cons r rs ih =>
        intro c hl hb hc h
        cases c with
        | nil => simp at hl
        | cons s ss =>
          have hr : r.Valid := hb r (by simp)
          have hs : s.Valid := hc s (by simp)
          obtain ⟨p, hp⟩ := exists_inB (b := rs) fun r hr => hb r (by simp [hr])
          obtain ⟨q, hq⟩ := exists_inB (b := ss) fun r hr => hc r (by simp [hr])
          have hR : ∀ x, InR x r ↔ InR x s := by
            intro x
            constructor
            · intro hx
              exact ((inB_cons_cons _ _ _ _).1
                ((h (x :: p)).1 ((inB_cons_cons _ _ _ _).2 ⟨hx, hp⟩))).1
            · intro hx
              exact ((inB_cons_cons _ _ _ _).1
                ((h (x :: q)).2 ((inB_cons_cons _ _ _ _).2 ⟨hx, hq⟩))).1
          have e : r = s := by
            have h1 := (hR r.b).1 ⟨le_refl _, hr⟩
            have h2 := (hR (r.e - 1)).1 ⟨by unfold Range.Valid at hr; omega, by omega⟩
            have h3 := (hR s.b).2 ⟨le_refl _, hs⟩
            have h4 := (hR (s.e - 1)).2 ⟨by unfold Range.Valid at hs; omega, by omega⟩
            unfold InR at h1 h2 h3 h4
            cases r; cases s
            simp only [Range.mk.injEq]
            dsimp only at h1 h2 h3 h4
            omega
          subst e
          congr 1
          refine ih ss (by simpa using hl) (fun r hr => hb r (by simp [hr]))
            (fun r hr => hc r (by simp [hr])) fun p => ?_
          have := h (r.b :: p)
          simp only [inB_cons_cons] at this
          have hb : InR r.b r := ⟨le_refl _, hr⟩
          constructor
          · exact fun hp => (this.1 ⟨hb, hp⟩).2
          · exact fun hp => (this.2 ⟨hb, hp⟩).2
    exact key b c hl hb.2 hc.2 h

example : Box.eqBox [⟨0, 3⟩, ⟨5, 7⟩] [⟨0, 3⟩, ⟨5, 7⟩] = true ∧
    Box.eqBox [⟨0, 3⟩, ⟨5, 7⟩] [⟨0, 3⟩, ⟨5, 8⟩] = false ∧
    Box.eqBox [⟨0, 3⟩] [⟨0, 3⟩, ⟨5, 8⟩] = false := by decide

/-- `size` is the number of points. -/
theorem C53_size (b : Box) : ∃ l : List Point, l.Nodup ∧ (∀ p, p ∈ l ↔ InB p b) ∧
    l.length = b.size := by
  refine ⟨enum b, ?_, fun p => mem_enum, enum_length b⟩
  refine (enum_sorted b).imp ?_
  rintro p q h rfl
  exact lexLt_irrefl _ h

example : Box.size [⟨0, 3⟩, ⟨5, 7⟩] = 6 := by decide

/-- `MultidimensionalRange(point)` has exactly that point. -/
theorem C53_ofPoint (p : Point) (hp : p ≠ []) :
    (Box.ofPoint p).Valid ∧ ∀ q, InB q (Box.ofPoint p) ↔ q = p := by
  refine ⟨⟨by simpa [ofPoint] using hp, by simp [ofPoint, Range.Valid]⟩, ?_⟩
  clear hp
  induction p with
  | nil => intro q; simp [ofPoint, inB_nil]
  | cons x xs ih =>
    intro q
    cases q with
    | nil => simp [ofPoint, inB_cons]
    | cons y ys =>
      have := ih ys
      simp only [ofPoint, List.map_cons, inB_cons_cons, List.cons.injEq] at this ⊢
      rw [this]
      unfold InR
      constructor
      · rintro ⟨h, h'⟩; exact ⟨by dsimp only at h; omega, h'⟩
      · rintro ⟨rfl, h'⟩; exact ⟨by dsimp only; omega, h'⟩

example : Box.ofPoint [4, 7] = [⟨4, 5⟩, ⟨7, 8⟩] := rfl

end Marco.Props
