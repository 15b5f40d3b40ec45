import Verif.Lemmas.Box
import Verif.Props.C05_Orders

/-!
# C04: box merging is exact
-/

namespace Marco.Props
open Marco Spec Box

/-- The two boxes agree except possibly in dimension `d`. -/
def AgreeExcept (b c : Box) (d : Nat) : Prop := ∀ i, i ≠ d → b[i]? = c[i]?

theorem neRange_iff (r s : Range) : r.neRange s = true ↔ r ≠ s := (C05_range_compare r s).2.2.2

theorem canBeMergedLoop_found : ∀ (b c : Box) (i d : Nat), b.length = c.length →
    (canBeMergedLoop b c i true d = (if b = c then (true, d) else (false, 0)))
  | [], [], _, _, _ => by simp [canBeMergedLoop]
  | r :: rs, s :: ss, i, d, h => by
    have ih := canBeMergedLoop_found rs ss (i + 1) d (by simpa using h)
    have hn := neRange_iff r s
    by_cases hrs : r = s
    · have : r.neRange s = false := by rw [← Bool.not_eq_true, hn]; simp [hrs]
      rw [canBeMergedLoop, this, ih, hrs]
      simp
    · have : r.neRange s = true := hn.2 hrs
      simp only [canBeMergedLoop, this, if_true, List.cons.injEq, hrs, false_and, if_false]
      split_ifs <;> rfl
  | [], _ :: _, _, _, h => by simp at h
  | _ :: _, [], _, _, h => by simp at h

/-- Characterisation of the loop: it succeeds with dimension `d` exactly when `d` is the one
dimension in which the boxes differ and the ranges there can be merged. -/
theorem canBeMergedLoop_spec : ∀ (b c : Box) (i d0 : Nat), b.length = c.length →
    ∀ d, (canBeMergedLoop b c i false d0 = (true, d) ↔
      ∃ pre r s post, b = pre ++ r :: post ∧ c = pre ++ s :: post ∧ r ≠ s ∧
        r.canBeMerged s = true ∧ d = i + pre.length)
  | [], [], _, _, _, d => by simp [canBeMergedLoop]
  | r :: rs, s :: ss, i, d0, h, d => by
    have hl : rs.length = ss.length := by simpa using h
    have ih := canBeMergedLoop_spec rs ss (i + 1) d0 hl d
    have hn := neRange_iff r s
    by_cases hrs : r = s
    · have : r.neRange s = false := by rw [← Bool.not_eq_true, hn]; simp [hrs]
      simp only [canBeMergedLoop, this, Bool.false_eq_true, if_false, ih]
      subst hrs
      constructor
      · rintro ⟨pre, a, b, post, rfl, rfl, h1, h2, h3⟩
        exact ⟨r :: pre, a, b, post, by simp, by simp, h1, h2, by simp; omega⟩
      · rintro ⟨pre, a, b, post, h0, h0', h1, h2, h3⟩
        cases pre with
        | nil => simp at h0 h0'; exact absurd (h0.1.symm.trans h0'.1) h1
        | cons z zs =>
          simp only [List.cons_append, List.cons.injEq] at h0 h0'
          exact ⟨zs, a, b, post, h0.2, h0'.2, h1, h2, by simp at h3; omega⟩
    · have hne : r.neRange s = true := hn.2 hrs
      simp only [canBeMergedLoop, hne, if_true, Bool.false_eq_true, if_false,
        canBeMergedLoop_found rs ss (i + 1) i hl]
      constructor
      · intro h1
        by_cases hm : r.canBeMerged s = true
        · by_cases hr : rs = ss
          · simp [hm, hr] at h1
            exact ⟨[], r, s, rs, by simp, by simp [hr], hrs, hm, by simp [h1]⟩
          · simp [hm, hr] at h1
        · simp [hm] at h1
      · rintro ⟨pre, a, b, post, h0, h0', h1, h2, h3⟩
        cases pre with
        | nil =>
          simp only [List.nil_append, List.cons.injEq] at h0 h0'
          obtain ⟨rfl, rfl⟩ := h0
          obtain ⟨rfl, rfl⟩ := h0'
          simp only [List.length_nil, Nat.add_zero] at h3
          simp [h2, h3]
        | cons z zs =>
          simp only [List.cons_append, List.cons.injEq] at h0 h0'
          exact absurd (h0.1.trans h0'.1.symm) hrs
  | [], _ :: _, _, _, h, _ => by simp at h
  | _ :: _, [], _, _, h, _ => by simp at h

theorem mergeLoop_eq : ∀ (pre : Box) (r s : Range) (post : Box) (i : Nat),
    mergeLoop (pre ++ r :: post) (pre ++ s :: post) i (i + pre.length) =
      pre ++ r.merge s :: post
  | [], r, s, post, i => by
    have : ∀ (l : Box) (j : Nat), i < j → mergeLoop l l j i = l := by
      intro l
      induction l with
      | nil => intro j _; simp [mergeLoop]
      | cons a as ih =>
        intro j hj
        have hji : ¬ j = i := by omega
        simp [mergeLoop, hji, ih (j + 1) (by omega)]
    simp [mergeLoop, this post (i + 1) (by omega)]
  | z :: zs, r, s, post, i => by
    have ih := mergeLoop_eq zs r s post (i + 1)
    have h1 : i + (zs.length + 1) = i + 1 + zs.length := by omega
    simp only [List.cons_append, mergeLoop, List.length_cons, h1, ih]
    have : ¬ i = i + 1 + zs.length := by omega
    simp [this]

/-- C04, soundness: whenever `canBeMerged` answers `(true, d)`, `merge(other, d)` is a
well-formed box denoting exactly the union of the two boxes. -/
theorem C04_merge_exact (b c : Box) (hb : b.Valid) (hc : c.Valid) (hr : b.length = c.length)
    (d : Nat) (h : b.canBeMerged c = (true, d)) :
    (b.merge c d).Valid ∧ (b.merge c d).length = b.length ∧
    ∀ p, InB p (b.merge c d) ↔ (InB p b ∨ InB p c) := by
  obtain ⟨pre, r, s, post, rfl, rfl, h1, h2, h3⟩ := (canBeMergedLoop_spec b c 0 0 hr d).1 h
  have hrv : r.Valid := hb.2 r (by simp)
  have hsv : s.Valid := hc.2 s (by simp)
  obtain ⟨hv, hm⟩ := C02_merge r s hrv hsv h2
  have he : merge (pre ++ r :: post) (pre ++ s :: post) d = pre ++ r.merge s :: post := by
    rw [merge, h3]; exact mergeLoop_eq pre r s post 0
  rw [he]
  refine ⟨⟨by simp, ?_⟩, by simp, ?_⟩
  · intro t ht
    simp only [List.mem_append, List.mem_cons] at ht
    rcases ht with ht | rfl | ht
    · exact hb.2 t (by simp [ht])
    · exact hv
    · exact hb.2 t (by simp [ht])
  · intro p
    have key : ∀ t, InB p (pre ++ t :: post) ↔
        ∃ q x xs, p = q ++ x :: xs ∧ InB q pre ∧ InR x t ∧ InB xs post := by
      intro t
      rw [inB_append]
      constructor
      · rintro ⟨q, r', rfl, h4, h5⟩
        obtain ⟨x, xs, rfl, h6, h7⟩ := (inB_cons _ _ _).1 h5
        exact ⟨q, x, xs, rfl, h4, h6, h7⟩
      · rintro ⟨q, x, xs, rfl, h4, h5, h6⟩
        exact ⟨q, x :: xs, rfl, h4, by simp [h5, h6]⟩
    rw [key, key, key]
    constructor
    · rintro ⟨q, x, xs, rfl, h4, h5, h6⟩
      rcases (hm x).1 h5 with h5 | h5
      · exact Or.inl ⟨q, x, xs, rfl, h4, h5, h6⟩
      · exact Or.inr ⟨q, x, xs, rfl, h4, h5, h6⟩
    · rintro (⟨q, x, xs, rfl, h4, h5, h6⟩ | ⟨q, x, xs, rfl, h4, h5, h6⟩)
      · exact ⟨q, x, xs, rfl, h4, (hm x).2 (Or.inl h5), h6⟩
      · exact ⟨q, x, xs, rfl, h4, (hm x).2 (Or.inr h5), h6⟩

/-- C04, completeness: distinct boxes that agree except in one dimension `d` and whose union is
a box are reported as mergeable along `d`. -/
theorem C04_merge_complete (b c : Box) (hb : b.Valid) (hc : c.Valid) (hr : b.length = c.length)
    (d : Nat) (hne : b ≠ c) (hag : AgreeExcept b c d)
    (hu : ∃ u : Box, ∀ p, InB p u ↔ (InB p b ∨ InB p c)) :
    b.canBeMerged c = (true, d) := by
  -- decompose along `d`
  have hd : d < b.length := by
    by_contra hd
    apply hne
    apply List.ext_getElem? 
    intro i
    by_cases hi : i = d
    · subst hi
      rw [List.getElem?_eq_none (by omega), List.getElem?_eq_none (by omega)]
    · exact hag i hi
  have hdc : d < c.length := by omega
  have hpre : b.take d = c.take d := by
    apply List.ext_getElem?
    intro i
    rw [List.getElem?_take, List.getElem?_take]
    split_ifs with hi
    · exact hag i (by omega)
    · rfl
  have hpost : b.drop (d + 1) = c.drop (d + 1) := by
    apply List.ext_getElem?
    intro i
    rw [List.getElem?_drop, List.getElem?_drop]
    exact hag _ (by omega)
  have eb : b = b.take d ++ b[d] :: b.drop (d + 1) := by simp
  have ec : c = b.take d ++ c[d] :: b.drop (d + 1) := by
    rw [hpre, hpost]; simp
  generalize hr' : b[d] = r at *
  generalize hs' : c[d] = s at *
  have hpl : (b.take d).length = d := by simp; omega
  generalize b.take d = pre at *
  generalize b.drop (d + 1) = post at *
  subst eb ec
  have hrs : r ≠ s := fun h => hne (by rw [h])
  have hrv : r.Valid := hb.2 r (by simp)
  have hsv : s.Valid := hc.2 s (by simp)
  rw [canBeMerged, canBeMergedLoop_spec _ _ 0 0 hr d]
  refine ⟨pre, r, s, post, rfl, rfl, hrs, ?_, by simp [hpl]⟩
  rw [C02_canBeMerged r s hrv hsv]
  obtain ⟨u, hu⟩ := hu
  obtain ⟨q, hq⟩ := exists_inB (b := pre) (fun t ht => hb.2 t (by simp [ht]))
  obtain ⟨w, hw⟩ := exists_inB (b := post) (fun t ht => hb.2 t (by simp [ht]))
  have key : ∀ x t, InB (q ++ x :: w) (pre ++ t :: post) ↔ InR x t := by
    intro x t
    rw [inB_append' (inB_length hq)]
    simp [hq, hw]
  have hul : u.length = pre.length + 1 + post.length := by
    have h1 : InB (q ++ r.b :: w) u := (hu _).2 (Or.inl ((key _ _).2 ⟨le_refl _, hrv⟩))
    have := inB_length h1
    have h2 := inB_length hq
    have h3 := inB_length hw
    simp at this; omega
  have ud : d < u.length := by omega
  obtain ⟨m, hm⟩ : ∃ m, u = u.take d ++ m :: u.drop (d + 1) := ⟨u[d], by simp⟩
  refine ⟨m, fun x => ?_⟩
  have hx := hu (q ++ x :: w)
  rw [key, key] at hx
  rw [← hx]
  have h1 : InB (q ++ r.b :: w) u := (hu _).2 (Or.inl ((key _ _).2 ⟨le_refl _, hrv⟩))
  have hlen : (u.take d).length = q.length := by
    have := inB_length hq
    simp; omega
  rw [hm, inB_append' hlen] at h1 ⊢
  simp only [inB_cons_cons] at h1 ⊢
  tauto

-- Concrete non-trivial instances.
example : Box.Valid [⟨0, 3⟩, ⟨1, 4⟩] ∧ Box.Valid [⟨0, 3⟩, ⟨4, 9⟩] ∧
    Box.canBeMerged [⟨0, 3⟩, ⟨1, 4⟩] [⟨0, 3⟩, ⟨4, 9⟩] = (true, 1) ∧
    Box.merge [⟨0, 3⟩, ⟨1, 4⟩] [⟨0, 3⟩, ⟨4, 9⟩] 1 = [⟨0, 3⟩, ⟨1, 9⟩] := by decide
-- Not mergeable: two dimensions differ.
example : Box.canBeMerged [⟨0, 3⟩, ⟨1, 4⟩] [⟨3, 4⟩, ⟨4, 9⟩] = (false, 0) := by decide

end Marco.Props
