import Verif.Lemmas.Box

/-!
# C06: a box equals a point only if it contains nothing else

The full statement is

  `∀ b p, b.Valid → b.length = p.length → (b.eqPoint p = true ↔ ∀ q, InB q b ↔ q = p)`.

It is false of the code: `Range::operator!=(data_type)` (Range.cpp:22-24) uses `&&` where the
negation of `operator==` needs `||`.
-/

namespace Marco.Props
open Marco Spec Box

/-- The full statement, as a proposition. -/
def C06_full : Prop := ∀ (b : Box) (p : Point), b.Valid → b.length = p.length →
  (b.eqPoint p = true ↔ ∀ q, InB q b ↔ q = p)

/-- The code disagrees with the property: `[5,7)` is reported equal to the point `5`. -/
theorem C06_eqPoint_false : ¬ C06_full := by
  intro h
  have h1 := (h [⟨5, 7⟩] [5] (by decide) (by decide)).1 (by decide)
  have h2 := (h1 [6]).1 (by simp [InR, inB_nil])
  simp at h2

theorem eqPointLoop_of_singleton : ∀ (p : Point), eqPointLoop (p.map fun x => ⟨x, x + 1⟩) p = true
  | [] => rfl
  | x :: xs => by
    have := eqPointLoop_of_singleton xs
    simp [eqPointLoop, Range.neInt, this]

theorem eq_ofPoint_of_inB_only : ∀ (b : Box) (p : Point), (∀ q, InB q b ↔ q = p) →
    b = p.map (fun x => ⟨x, x + 1⟩)
  | [], p, h => by
    have := (h []).1 (by simp [inB_nil]); simp [← this]
  | r :: rs, p, h => by
    have h0 := (h p).2 rfl
    obtain ⟨x, xs, rfl, h1, h2⟩ := (inB_cons _ _ _).1 h0
    have ih : rs = xs.map (fun x => ⟨x, x + 1⟩) := by
      apply eq_ofPoint_of_inB_only
      intro q
      have := h (x :: q)
      simpa [h1] using this
    have hb := (h (r.b :: xs)).1 (by
      simp only [inB_cons_cons, h2, and_true]; exact ⟨le_refl _, lt_of_le_of_lt h1.1 h1.2⟩)
    have he := (h ((r.e - 1) :: xs)).1 (by
      simp only [inB_cons_cons, h2, and_true]
      have := h1.1; have := h1.2
      constructor <;> omega)
    simp only [List.cons.injEq, and_true] at hb he
    rw [ih]
    cases r
    simp only at hb he
    simp [hb]; omega

/-- C06, the part that holds: a box that contains exactly the point `p` is reported equal to `p`,
and a box reported equal to `p` begins or ends, in every dimension, at `p`'s coordinate.
Missing: the converse of the first part (false, see `C06_eqPoint_false`). -/
theorem C06_eqPoint_partial (b : Box) (p : Point) :
    ((∀ q, InB q b ↔ q = p) → b.eqPoint p = true) ∧
    (b.eqPoint p = true → List.Forall₂ (fun r x => r.b = x ∨ r.e = x + 1) b p) ∧
    (b.nePoint p = !b.eqPoint p) := by
  refine ⟨?_, ?_, rfl⟩
  · intro h
    rw [eq_ofPoint_of_inB_only b p h]
    simp [eqPoint, eqPointLoop_of_singleton]
  · intro h
    have hl : b.length = p.length := by
      by_contra hc; simp [eqPoint, hc] at h
    simp only [eqPoint, hl, bne_self_eq_false, Bool.false_eq_true, if_false] at h
    clear * - h hl
    induction b generalizing p with
    | nil => cases p <;> simp_all
    | cons r rs ih =>
      cases p with
      | nil => simp at hl
      | cons x xs =>
        simp only [eqPointLoop] at h
        by_cases hn : r.neInt x = true
        · simp [hn] at h
        · simp only [hn, Bool.false_eq_true, if_false] at h
          refine List.Forall₂.cons ?_ (ih xs (by simpa using hl) h)
          simp only [Range.neInt, Bool.and_eq_true, bne_iff_ne, ne_eq] at hn
          omega

-- The hypothesis of the first part is met by a concrete box, and the second by another.
example : (Box.eqPoint [⟨5, 6⟩, ⟨2, 3⟩] [5, 2] = true) ∧ Box.eqPoint [⟨5, 6⟩, ⟨2, 3⟩] [5, 4] = false
    := by decide

end Marco.Props
