import Verif.Model.LocalMatching
import Verif.Props.C25_Apply

/-!
# Lemmas on the local matching solutions
-/

namespace Marco
open Marco.Spec Marco.IndexSet Marco.AccessFn Marco.Props

namespace LocalMatching

theorem mapM_forall₂ {α β : Type} {g : α → Option β} {P : α → β → Prop} : ∀ l : List α,
    (∀ x ∈ l, ∃ y, g x = some y ∧ P x y) → ∃ ys, l.mapM g = some ys ∧ List.Forall₂ P l ys := by
  intro l
  induction l with
  | nil => intro _; exact ⟨[], by simp, .nil⟩
  | cons x l ih =>
    intro h
    obtain ⟨y, h1, h2⟩ := h x (by simp)
    obtain ⟨ys, h3, h4⟩ := ih (fun x hx => h x (by simp [hx]))
    exact ⟨y :: ys, by simp [List.mapM_cons, h1, h3], .cons h2 h4⟩

theorem forall₂_left {α β : Type} {P : α → β → Prop} {l : List α} {m : List β}
    (h : List.Forall₂ P l m) {y : β} (hy : y ∈ m) : ∃ x ∈ l, P x y := by
  induction h with
  | nil => simp at hy
  | cons h _ ih =>
    rcases List.mem_cons.1 hy with rfl | hy
    · exact ⟨_, by simp, h⟩
    · obtain ⟨x, a, b⟩ := ih hy
      exact ⟨x, by simp [a], b⟩

theorem forall₂_right {α β : Type} {P : α → β → Prop} {l : List α} {m : List β}
    (h : List.Forall₂ P l m) {x : α} (hx : x ∈ l) : ∃ y ∈ m, P x y := by
  induction h with
  | nil => simp at hx
  | cons h _ ih =>
    rcases List.mem_cons.1 hx with rfl | hx
    · exact ⟨_, by simp, h⟩
    · obtain ⟨y, a, b⟩ := ih hx
      exact ⟨y, by simp [a], b⟩

theorem rank_of_has {k : Nat} {s : IndexSet} (h : SetOk k s) {p : Point} (hp : Has s p) :
    s.rank = k := by
  refine h.rank ?_
  cases hr : s.root with
  | some n => rfl
  | none =>
    rw [Has, ranges_none hr] at hp
    obtain ⟨_, h, _⟩ := hp
    simp at h

/-! ### The boxes of the offset/permutation generator -/

/-- The coordinates of the unused dimensions. -/
def unusedCoords : List Nat → Point → Point
  | 0 :: us, x :: xs => x :: unusedCoords us xs
  | _ :: us, _ :: xs => unusedCoords us xs
  | _, _ => []

theorem unused_inB : ∀ (us : List Nat) (b : Box) (p : Point), us.length = b.length → InB p b →
    InB (unusedCoords us p) (unusedRanges us b) := by
  intro us
  induction us with
  | nil => intro b p hl hp; cases b with
    | nil => cases hp; exact .nil
    | cons => simp at hl
  | cons u us ih =>
    intro b p hl hp
    cases hp with
    | nil => simp at hl
    | @cons r x rs xs h1 h2 =>
      have := ih rs xs (by simpa using hl) h2
      cases u with
      | zero => exact .cons h1 this
      | succ u => exact this

theorem fill_spec : ∀ (us : List Nat) (b : Box) (q p : Point), us.length = b.length →
    InB q (unusedRanges us b) →
    (InB p (fillUnused us b q) ↔ InB p b ∧ unusedCoords us p = q) := by
  intro us
  induction us with
  | nil =>
    intro b q p hl hq
    cases b with
    | cons => simp at hl
    | nil =>
      simp only [unusedRanges] at hq
      cases hq
      simp [fillUnused, unusedCoords]
  | cons u us ih =>
    intro b q p hl hq
    cases b with
    | nil => simp at hl
    | cons r rs =>
      have hl' : us.length = rs.length := by simpa using hl
      cases u with
      | zero =>
        simp only [unusedRanges] at hq
        cases hq with
        | @cons _ x _ xs h1 h2 =>
          simp only [fillUnused]
          constructor
          · intro h
            cases h with
            | @cons _ y _ ys k1 k2 =>
              obtain ⟨a, c⟩ := (ih rs xs ys hl' h2).1 k2
              have : y = x := by
                obtain ⟨k1, k1'⟩ := k1
                simp only at k1 k1'
                omega
              subst this
              exact ⟨.cons h1 a, by simp [unusedCoords, c]⟩
          · rintro ⟨h, e⟩
            cases h with
            | @cons _ y _ ys k1 k2 =>
              simp only [unusedCoords, List.cons.injEq] at e
              obtain ⟨rfl, e⟩ := e
              exact .cons ⟨by simp, by simp⟩ ((ih rs xs ys hl' h2).2 ⟨k2, e⟩)
      | succ u =>
        simp only [unusedRanges] at hq
        simp only [fillUnused]
        constructor
        · intro h
          cases h with
          | @cons _ y _ ys k1 k2 =>
            obtain ⟨a, c⟩ := (ih rs q ys hl' hq).1 k2
            exact ⟨.cons k1 a, by simpa [unusedCoords] using c⟩
        · rintro ⟨h, e⟩
          cases h with
          | @cons _ y _ ys k1 k2 =>
            exact .cons k1 ((ih rs q ys hl' hq).2 ⟨k2, by simpa [unusedCoords] using e⟩)

theorem fill_valid : ∀ (us : List Nat) (b : Box) (q : Point), us.length = b.length →
    q.length = (unusedRanges us b).length → (∀ r ∈ b, r.Valid) →
    (fillUnused us b q).length = b.length ∧ ∀ r ∈ fillUnused us b q, r.Valid := by
  intro us
  induction us with
  | nil =>
    intro b q hl _ _
    cases b with
    | cons => simp at hl
    | nil => simp [fillUnused]
  | cons u us ih =>
    intro b q hl hq hv
    cases b with
    | nil => simp at hl
    | cons r rs =>
      have hl' : us.length = rs.length := by simpa using hl
      have hv' : ∀ r ∈ rs, r.Valid := fun r hr => hv r (by simp [hr])
      cases u with
      | zero =>
        cases q with
        | nil => simp [unusedRanges] at hq
        | cons x xs =>
          obtain ⟨a, c⟩ := ih rs xs hl' (by simpa [unusedRanges] using hq) hv'
          simp only [fillUnused, List.length_cons, a, List.mem_cons, true_and]
          rintro r' (rfl | h)
          · simp [Range.Valid]
          · exact c r' h
      | succ u =>
        obtain ⟨a, c⟩ := ih rs q hl' (by simpa [unusedRanges] using hq) hv'
        simp only [fillUnused, List.length_cons, a, List.mem_cons, true_and]
        rintro r' (rfl | h)
        · exact hv _ (by simp)
        · exact c r' h

theorem fill_nil : ∀ (us : List Nat) (b : Box), us.length = b.length → unusedRanges us b = [] →
    fillUnused us b [] = b := by
  intro us
  induction us with
  | nil => intro b hl _; cases b with
    | nil => rfl
    | cons => simp at hl
  | cons u us ih =>
    intro b hl h
    cases b with
    | nil => simp at hl
    | cons r rs =>
      cases u with
      | zero => simp [unusedRanges] at h
      | succ u => simp [fillUnused, ih rs (by simpa using hl) (by simpa [unusedRanges] using h)]

theorem pieces_eq {us : List Nat} {b : Box} (hl : us.length = b.length) :
    rotoPieces us b = (enum (unusedRanges us b)).map (fillUnused us b) := by
  unfold rotoPieces
  split_ifs with h
  · have h' : unusedRanges us b = [] := by simpa using h
    rw [h']
    simp [enum, fill_nil us b hl h']
  · rfl

theorem pieces_spec {k : Nat} {us : List Nat} {b : Box} (hl : us.length = k) (hb : Ranked k b) :
    (∀ b' ∈ rotoPieces us b, Ranked k b' ∧ ∃ q, ∀ p, InB p b' ↔ InB p b ∧ unusedCoords us p = q) ∧
    (∀ p, InB p b → ∃ b' ∈ rotoPieces us b, InB p b') := by
  have hl' : us.length = b.length := by rw [hl, hb.2]
  rw [pieces_eq hl']
  refine ⟨fun b' h => ?_, fun p hp => ?_⟩
  · obtain ⟨q, hq, rfl⟩ := List.mem_map.1 h
    rw [mem_enum] at hq
    obtain ⟨a, c⟩ := fill_valid us b q hl' hq.length_eq.symm hb.1.2
    refine ⟨⟨⟨?_, c⟩, by rw [a, hb.2]⟩, q, fun p => fill_spec us b q p hl' hq⟩
    have := hb.1.1
    rw [← List.length_pos_iff, a]
    exact List.length_pos_iff.2 this
  · have h := unused_inB us b p hl' hp
    exact ⟨_, List.mem_map.2 ⟨_, mem_enum.2 h, rfl⟩, (fill_spec us b _ p hl' h).2 ⟨hp, rfl⟩⟩

theorem unusedSize_eq : ∀ (us : List Nat) (b : Box), us.length = b.length →
    unusedSize us b = (enum (unusedRanges us b)).length := by
  intro us
  induction us with
  | nil => intro b hl; cases b <;> simp [unusedSize, unusedRanges, enum]
  | cons u us ih =>
    intro b hl
    cases b with
    | nil => simp at hl
    | cons r rs =>
      have := ih rs (by simpa using hl)
      cases u with
      | zero =>
        have h1 : (intsFrom r.b r.e).length = r.size := by simp [intsFrom, Range.size]
        simp [unusedSize, unusedRanges, enum, List.length_flatMap, this, h1]
      | succ u => simpa [unusedSize, unusedRanges] using this

theorem pieces_length {us : List Nat} {b : Box} (hl : us.length = b.length) :
    (rotoPieces us b).length = unusedSize us b := by
  rw [pieces_eq hl, List.length_map, unusedSize_eq us b hl]

theorem unusedCoords_get : ∀ (us : List Nat) (p p' : Point) (d : Nat), p.length = us.length →
    p'.length = us.length → unusedCoords us p = unusedCoords us p' → us[d]? = some 0 →
    p[d]? = p'[d]? := by
  intro us
  induction us with
  | nil => intro p p' d _ _ _ h; simp at h
  | cons u us ih =>
    intro p p' d h1 h2 he hd
    cases p with
    | nil => simp at h1
    | cons x xs =>
      cases p' with
      | nil => simp at h2
      | cons x' xs' =>
        have h1' : xs.length = us.length := by simpa using h1
        have h2' : xs'.length = us.length := by simpa using h2
        cases u with
        | zero =>
          simp only [unusedCoords, List.cons.injEq] at he
          cases d with
          | zero => simp [he.1]
          | succ d => simpa using ih xs xs' d h1' h2' he.2 (by simpa using hd)
        | succ u =>
          simp only [unusedCoords] at he
          cases d with
          | zero => simp at hd
          | succ d => simpa using ih xs xs' d h1' h2' he (by simpa using hd)

theorem countUsages_length (m : AffineMap) : (countUsages m).length = m.dims := by
  simp [countUsages]

theorem countUsages_get {m : AffineMap} {d : Nat} (hd : d < m.dims)
    (h : (usedDims m)[d]? ≠ some true) : (countUsages m)[d]? = some 0 := by
  rw [countUsages, List.getElem?_map, List.getElem?_range hd, Option.map_some, Option.some.injEq,
    List.length_eq_zero_iff, List.filter_eq_nil_iff]
  intro e he hv
  refine h ((usedDims_get m d).2 ⟨⟨e, he, by simpa using hv⟩, hd⟩)

/-- On a box in which the unused coordinates are fixed, the access is injective. -/
theorem piece_injective {m : AffineMap} (hm : RotoOk m) {p p' v : Point} (hl : p.length = m.dims)
    (hl' : p'.length = m.dims)
    (hu : unusedCoords (countUsages m) p = unusedCoords (countUsages m) p')
    (h : Vals m.results p v) (h' : Vals m.results p' v) : p = p' := by
  obtain ⟨h1, -⟩ := roto_agree hm h h' rfl
  apply List.ext_getElem?
  intro d
  by_cases hd : d < m.dims
  · by_cases hx : (usedDims m)[d]? = some true
    · exact h1 d hx
    · exact unusedCoords_get _ p p' d (by rw [hl, countUsages_length])
        (by rw [hl', countUsages_length]) hu (countUsages_get hd hx)
  · rw [List.getElem?_eq_none (by omega), List.getElem?_eq_none (by omega)]

end LocalMatching
end Marco
