import Verif.Model.Box

/-!
# C05: comparison operators of points, ranges and boxes are strict total orders
consistent with equality
-/

namespace Marco.Props
open Marco Spec

/-- What a user of `std::sort`/`std::map` needs from `operator<` together with `operator==`. -/
structure StrictTotal {α : Type} (lt : α → α → Bool) (eq : α → α → Bool) : Prop where
  irrefl : ∀ a, lt a a = false
  trans : ∀ a b c, lt a b = true → lt b c = true → lt a c = true
  total : ∀ a b, lt a b = true ∨ a = b ∨ lt b a = true
  asymm : ∀ a b, lt a b = true → lt b a = false
  eq_iff : ∀ a b, eq a b = true ↔ a = b

/-! ## Helpers -/

theorem range_compare_neg (r s : Range) :
    r.compare s < 0 ↔ r.b < s.b ∨ (r.b = s.b ∧ r.e < s.e) := by
  simp only [Range.compare, beq_iff_eq]
  split_ifs <;> simp <;> omega

theorem range_compare_zero (r s : Range) : r.compare s = 0 ↔ r = s := by
  cases r; cases s
  simp only [Range.compare, beq_iff_eq, Range.mk.injEq]
  split_ifs <;> simp <;> omega

theorem range_compare_pos (r s : Range) : r.compare s > 0 ↔ s.compare r < 0 := by
  rw [range_compare_neg]
  simp only [Range.compare, beq_iff_eq]
  split_ifs <;> simp <;> omega

/-! ## Ranges -/

/-- `operator<` and `operator==` on ranges. -/
theorem C05_range : StrictTotal Range.lt Range.eqRange where
  irrefl a := by simp [Range.lt]
  trans a b c := by
    simp only [Range.lt, beq_iff_eq]
    split_ifs <;> simp <;> omega
  total a b := by
    cases a; cases b
    simp only [Range.lt, beq_iff_eq, Range.mk.injEq]
    split_ifs <;> simp <;> omega
  asymm a b := by
    simp only [Range.lt, beq_iff_eq]
    split_ifs <;> simp <;> omega
  eq_iff a b := by
    cases a; cases b; simp [Range.eqRange]

/-- `compare`, `operator<`, `operator>` and `operator!=` on ranges agree. -/
theorem C05_range_compare (r s : Range) :
    (r.lt s = true ↔ r.compare s < 0) ∧ (r.gt s = true ↔ r.compare s > 0) ∧
    (r.gt s = true ↔ s.lt r = true) ∧ (r.neRange s = true ↔ r ≠ s) := by
  refine ⟨?_, ?_, ?_, ?_⟩
  · rw [range_compare_neg]; simp only [Range.lt, beq_iff_eq]; split_ifs <;> simp <;> omega
  · rw [range_compare_pos, range_compare_neg]
    simp only [Range.gt, beq_iff_eq]; split_ifs <;> simp <;> omega
  · simp only [Range.gt, Range.lt, beq_iff_eq]; split_ifs <;> simp <;> omega
  · cases r; cases s; simp only [Range.neRange, Bool.or_eq_true, bne_iff_ne, ne_eq, Range.mk.injEq]
    omega

/-! ## Points -/

theorem point_compareLoop_zero : ∀ (p q : Point), p.length = q.length →
    (Point.compareLoop p q = 0 ↔ p = q)
  | [], [], _ => by simp [Point.compareLoop]
  | a :: as, b :: bs, h => by
    have ih := point_compareLoop_zero as bs (by simpa using h)
    simp only [Point.compareLoop, List.cons.injEq]
    split_ifs with h1 h2
    · simp; omega
    · simp; omega
    · rw [ih]; have : a = b := by omega
      simp [this]
  | [], _ :: _, h => by simp at h
  | _ :: _, [], h => by simp at h

theorem point_compareLoop_neg : ∀ (p q : Point), p.length = q.length →
    (Point.compareLoop p q < 0 ↔ LexLt p q)
  | [], [], _ => by simp [Point.compareLoop, LexLt]
  | a :: as, b :: bs, h => by
    have ih := point_compareLoop_neg as bs (by simpa using h)
    simp only [Point.compareLoop, LexLt]
    split_ifs with h1 h2
    · simp [h1]
    · simp; omega
    · rw [ih]; have : a = b := by omega
      simp [this]
  | [], _ :: _, h => by simp at h
  | _ :: _, [], h => by simp at h

theorem lexLt_irrefl : ∀ p, ¬ LexLt p p
  | [] => by simp [LexLt]
  | a :: as => by simp [LexLt, lexLt_irrefl as]

theorem lexLt_trans : ∀ {p q r}, LexLt p q → LexLt q r → LexLt p r
  | a :: as, b :: bs, c :: cs, h1, h2 => by
    simp only [LexLt] at *
    rcases h1 with h1 | ⟨rfl, h1⟩ <;> rcases h2 with h2 | ⟨rfl, h2⟩
    · left; omega
    · left; omega
    · left; omega
    · right; exact ⟨rfl, lexLt_trans h1 h2⟩
  | [], _, _, h1, _ => by simp [LexLt] at h1
  | _ :: _, [], _, h1, _ => by simp [LexLt] at h1
  | _ :: _, _ :: _, [], _, h2 => by simp [LexLt] at h2

theorem lexLt_total : ∀ (p q : List Int), p.length = q.length → LexLt p q ∨ p = q ∨ LexLt q p
  | [], [], _ => by simp
  | a :: as, b :: bs, h => by
    have ih := lexLt_total as bs (by simpa using h)
    simp only [LexLt, List.cons.injEq]
    rcases lt_trichotomy a b with h | h | h
    · simp [h]
    · subst h; simpa using ih
    · simp [h]
  | [], _ :: _, h => by simp at h
  | _ :: _, [], h => by simp at h

theorem lexLt_length : ∀ {p q}, LexLt p q → p ≠ [] ∧ q ≠ []
  | _ :: _, _ :: _, _ => by simp
  | [], _, h => by simp [LexLt] at h
  | _ :: _, [], h => by simp [LexLt] at h

theorem point_lt_iff (p q : Point) : Point.lt p q = true ↔
    p.length < q.length ∨ (p.length = q.length ∧ LexLt p q) := by
  simp only [Point.lt, Point.compare]
  split_ifs with h1 h2
  · simp [h1]
  · simp; omega
  · have h : p.length = q.length := by omega
    simp [point_compareLoop_neg p q h, h]

theorem point_eq_iff (p q : Point) : Point.eqPoint p q = true ↔ p = q := by
  have loop : ∀ p q : Point, p.length = q.length → (Point.eqLoop p q = true ↔ p = q) := by
    intro p
    induction p with
    | nil => intro q h; cases q <;> simp_all [Point.eqLoop]
    | cons a as ih =>
      intro q h
      cases q with
      | nil => simp at h
      | cons b bs =>
        have := ih bs (by simpa using h)
        by_cases hab : a = b <;> simp [Point.eqLoop, hab, this]
  unfold Point.eqPoint
  by_cases h : p.length = q.length
  · simp [h, loop p q h]
  · have : p ≠ q := fun hc => h (by rw [hc])
    simp [h, this]

/-- `operator<` and `operator==` on points (any ranks). -/
theorem C05_point : StrictTotal Point.lt Point.eqPoint where
  irrefl a := by
    rw [← Bool.not_eq_true, point_lt_iff]; simp [lexLt_irrefl]
  trans a b c := by
    simp only [point_lt_iff]
    rintro (h1 | ⟨h1, h1'⟩) (h2 | ⟨h2, h2'⟩)
    · left; omega
    · left; omega
    · left; omega
    · right; exact ⟨by omega, lexLt_trans h1' h2'⟩
  total a b := by
    simp only [point_lt_iff]
    rcases lt_trichotomy a.length b.length with h | h | h
    · simp [h]
    · rcases lexLt_total a b h with h' | h' | h' <;> simp [h, h']
    · simp [h]
  asymm a b := by
    rw [← Bool.not_eq_true]
    simp only [point_lt_iff]
    rintro (h1 | ⟨h1, h1'⟩) (h2 | ⟨h2, h2'⟩)
    · omega
    · omega
    · omega
    · exact lexLt_irrefl _ (lexLt_trans h1' h2')
  eq_iff := point_eq_iff

/-! ## Boxes -/

theorem box_compare_self_zero : ∀ (b c : Box), b.length = c.length →
    (Box.compareLoop b c = 0 ↔ b = c)
  | [], [], _ => by simp [Box.compareLoop]
  | a :: as, b :: bs, h => by
    have ih := box_compare_self_zero as bs (by simpa using h)
    simp only [Box.compareLoop, List.cons.injEq, bne_iff_ne, ne_eq, ite_not]
    split_ifs with h1
    · rw [ih]; simp [(range_compare_zero a b).1 h1]
    · have : a ≠ b := fun hc => h1 ((range_compare_zero a b).2 hc)
      simp [h1, this]
  | [], _ :: _, h => by simp at h
  | _ :: _, [], h => by simp at h

theorem box_compareLoop_antisymm : ∀ (b c : Box), b.length = c.length →
    (Box.compareLoop b c > 0 ↔ Box.compareLoop c b < 0)
  | [], [], _ => by simp [Box.compareLoop]
  | a :: as, b :: bs, h => by
    have ih := box_compareLoop_antisymm as bs (by simpa using h)
    simp only [Box.compareLoop, bne_iff_ne, ne_eq, ite_not]
    by_cases hab : a = b
    · subst hab; simp [(range_compare_zero a a).2 rfl, ih]
    · rw [if_neg (fun hc => hab ((range_compare_zero _ _).1 hc)),
        if_neg (fun hc => hab ((range_compare_zero _ _).1 hc).symm)]
      exact range_compare_pos a b
  | [], _ :: _, h => by simp at h
  | _ :: _, [], h => by simp at h

theorem box_compareLoop_trans : ∀ (a b c : Box), a.length = b.length → b.length = c.length →
    Box.compareLoop a b < 0 → Box.compareLoop b c < 0 → Box.compareLoop a c < 0
  | [], [], [], _, _, h, _ => by simp [Box.compareLoop] at h
  | x :: xs, y :: ys, z :: zs, h1, h2, h3, h4 => by
    have ih := box_compareLoop_trans xs ys zs (by simpa using h1) (by simpa using h2)
    simp only [Box.compareLoop, bne_iff_ne, ne_eq, ite_not] at *
    by_cases hxy : x = y
    · subst hxy
      rw [if_pos ((range_compare_zero x x).2 rfl)] at h3
      by_cases hxz : x = z
      · subst hxz
        rw [if_pos ((range_compare_zero x x).2 rfl)] at *
        exact ih h3 h4
      · rw [if_neg (fun hc => hxz ((range_compare_zero _ _).1 hc))] at *
        exact h4
    · rw [if_neg (fun hc => hxy ((range_compare_zero _ _).1 hc))] at h3
      by_cases hyz : y = z
      · subst hyz
        rw [if_neg (fun hc => hxy ((range_compare_zero _ _).1 hc))]
        exact h3
      · rw [if_neg (fun hc => hyz ((range_compare_zero _ _).1 hc))] at h4
        rw [range_compare_neg] at h3 h4
        have h5 : x.compare z < 0 := by rw [range_compare_neg]; omega
        rw [if_neg (by omega)]
        exact h5
  | [], _ :: _, _, h, _, _, _ => by simp at h
  | _ :: _, [], _, h, _, _, _ => by simp at h
  | _ :: _, _ :: _, [], _, h, _, _ => by simp at h
  | [], [], _ :: _, _, h, _, _ => by simp at h

theorem box_lt_iff (b c : Box) : Box.lt b c = true ↔
    b.length < c.length ∨ (b.length = c.length ∧ Box.compareLoop b c < 0) := by
  simp only [Box.lt, Box.compare, decide_eq_true_eq, bne_iff_ne, ne_eq, ite_not]
  split_ifs with h1 h2 <;> simp [*]

theorem box_eq_iff (b c : Box) : Box.eqBox b c = true ↔ b = c := by
  have loop : ∀ b c : Box, b.length = c.length → (Box.eqBoxLoop b c = true ↔ b = c) := by
    intro p
    induction p with
    | nil => intro q h; cases q <;> simp_all [Box.eqBoxLoop]
    | cons a as ih =>
      intro q h
      cases q with
      | nil => simp at h
      | cons b bs =>
        have := ih bs (by simpa using h)
        have hne := (C05_range_compare a b).2.2.2
        by_cases hab : a = b
        · have : a.neRange b = false := by
            rw [← Bool.not_eq_true, hne]; simp [hab]
          simp_all [Box.eqBoxLoop]
        · have : a.neRange b = true := hne.2 hab
          simp [Box.eqBoxLoop, this, hab]
  unfold Box.eqBox
  by_cases h : b.length = c.length
  · simp [h, loop b c h]
  · have : b ≠ c := fun hc => h (by rw [hc])
    simp [h, this]

/-- `operator<` and `operator==` on boxes (any ranks). -/
theorem C05_box : StrictTotal Box.lt Box.eqBox where
  irrefl a := by
    rw [← Bool.not_eq_true, box_lt_iff]
    simp [(box_compare_self_zero a a rfl).2 rfl]
  trans a b c := by
    simp only [box_lt_iff]
    rintro (h1 | ⟨h1, h1'⟩) (h2 | ⟨h2, h2'⟩)
    · left; omega
    · left; omega
    · left; omega
    · right; exact ⟨by omega, box_compareLoop_trans a b c h1 h2 h1' h2'⟩
  total a b := by
    simp only [box_lt_iff]
    rcases lt_trichotomy a.length b.length with h | h | h
    · simp [h]
    · rcases lt_trichotomy (Box.compareLoop a b) 0 with h' | h' | h'
      · simp [h, h']
      · right; left; exact (box_compare_self_zero a b h).1 h'
      · right; right; right; exact ⟨h.symm, (box_compareLoop_antisymm a b h).1 h'⟩
    · simp [h]
  asymm a b := by
    rw [← Bool.not_eq_true]
    simp only [box_lt_iff]
    rintro (h1 | ⟨h1, h1'⟩) (h2 | ⟨h2, h2'⟩)
    · omega
    · omega
    · omega
    · have := (box_compareLoop_antisymm a b h1).2 h2'
      omega
  eq_iff := box_eq_iff

/-- `operator>` on boxes is the converse of `operator<`. -/
theorem C05_box_gt (b c : Box) : Box.gt b c = true ↔ Box.lt c b = true := by
  rw [box_lt_iff]
  simp only [Box.gt, Box.compare, decide_eq_true_eq, bne_iff_ne, ne_eq, ite_not]
  split_ifs with h1 h2
  · rw [box_compareLoop_antisymm b c h1]; simp [h1]
  · simp; omega
  · simp; omega

-- Non-trivial instances: the orders distinguish values.
example : Point.lt [1, 5] [2, 0] = true ∧ Point.lt [7] [0, 0] = true ∧
    Range.lt ⟨0, 3⟩ ⟨0, 5⟩ = true ∧ Box.lt [⟨0, 3⟩, ⟨4, 5⟩] [⟨0, 3⟩, ⟨4, 6⟩] = true := by decide

end Marco.Props
