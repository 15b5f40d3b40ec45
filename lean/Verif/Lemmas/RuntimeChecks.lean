import Verif.Spec.RuntimeChecks

/-!
# Lemmas about the checks at run time
-/

namespace Marco.Checks

open Marco.Spec.Checks

theorem passes_none : ¬ Passes none := by rintro ⟨_, h, _⟩; cases h

theorem passes_nil : Passes (some []) := ⟨[], rfl, by simp⟩

theorem passes_map_cons {r : Option (List Bool)} {c : Bool} :
    Passes (r.map fun cs => c :: cs) ↔ c = true ∧ Passes r := by
  cases r with
  | none => exact ⟨fun h => absurd h passes_none, fun h => absurd h.2 passes_none⟩
  | some cs =>
    constructor
    · rintro ⟨l, h, hl⟩
      cases h
      exact ⟨hl c (by simp), cs, rfl, fun x hx => hl x (by simp [hx])⟩
    · rintro ⟨hc, l, h, hl⟩
      cases h
      exact ⟨_, rfl, by simpa [hc] using hl⟩

theorem indexed_length {dims : List ℕ} {is : List ℤ} (h : dims.length ≤ is.length) :
    ∃ cs, indexed dims is = some cs ∧ cs.length = dims.length := by
  induction dims generalizing is with
  | nil => exact ⟨[], rfl, rfl⟩
  | cons d ds ih =>
    cases is with
    | nil => simp at h
    | cons i is =>
      obtain ⟨cs, h1, h2⟩ := ih (is := is) (by simpa using h)
      exact ⟨(decide (0 ≤ i) && decide (i < d)) :: cs, by simp [indexed, h1], by simp [h2]⟩

theorem indexed_none {dims : List ℕ} {is : List ℤ} (h : is.length < dims.length) :
    indexed dims is = none := by
  induction dims generalizing is with
  | nil => simp at h
  | cons d ds ih =>
    cases is with
    | nil => rfl
    | cons i is => simp [indexed, ih (is := is) (by simpa using h)]

theorem indexed_iff {dims : List ℕ} {is : List ℤ} (h : is.length = dims.length) :
    Passes (indexed dims is) ↔ Inside dims is := by
  induction dims generalizing is with
  | nil =>
    cases is with
    | nil => exact ⟨fun _ => .nil, fun _ => passes_nil⟩
    | cons _ _ => simp at h
  | cons d ds ih =>
    cases is with
    | nil => simp at h
    | cons i is =>
      rw [indexed, passes_map_cons, ih (by simpa using h)]
      simp [Inside]

/-- Positive steps. -/
theorem rangeSize_pos {b e s : ℤ} (hs : 0 < s) (h : b ≤ e) (n : ℤ) :
    n = Views.rangeSize b e s ↔ ∀ k : ℕ, (k : ℤ) < n ↔ b + k * s ≤ e := by
  have h0 : 0 ≤ e - b := by omega
  have key : ∀ k : ℕ, (k : ℤ) < Views.rangeSize b e s ↔ b + k * s ≤ e := by
    intro k
    rw [Views.rangeSize, Int.tdiv_eq_ediv_of_nonneg h0]
    have := Int.le_ediv_iff_mul_le (a := (k : ℤ)) (b := e - b) hs
    constructor
    · intro h1
      have := this.1 (by omega)
      omega
    · intro h1
      have := this.2 (by omega)
      omega
  have hp : 0 < Views.rangeSize b e s := by
    have := (key 0).2 (by simpa using h)
    simpa using this
  constructor
  · rintro rfl; exact key
  · intro hn
    have hn0 : 0 < n := by
      have := (hn 0).2 (by simpa using h)
      simpa using this
    apply le_antisymm
    · by_contra hlt
      have h1 := (hn (Views.rangeSize b e s).toNat).1 (by omega)
      have := (key (Views.rangeSize b e s).toNat).2 h1
      omega
    · by_contra hlt
      have h1 := (key n.toNat).1 (by omega)
      have := (hn n.toNat).2 h1
      omega

theorem rangeSize_neg (b e s : ℤ) : Views.rangeSize b e s = Views.rangeSize (-b) (-e) (-s) := by
  have : -e - -b = -(e - b) := by ring
  rw [Views.rangeSize, Views.rangeSize, this, Int.neg_tdiv, Int.tdiv_neg, neg_neg]

theorem reaches_neg {b e s : ℤ} {k : ℕ} : Reaches b e s k ↔ Reaches (-b) (-e) (-s) k := by
  unfold Reaches
  rw [mul_neg]
  constructor <;> rintro (⟨h, h'⟩ | ⟨h, h'⟩)
  · exact .inr ⟨by omega, by omega⟩
  · exact .inl ⟨by omega, by omega⟩
  · exact .inr ⟨by omega, by omega⟩
  · exact .inl ⟨by omega, by omega⟩

/-- The size of a range with elements. -/
theorem rangeSize_iff {b e s : ℤ} (h : Reaches b e s 0) (n : ℕ) :
    (n : ℤ) = Views.rangeSize b e s ↔ ∀ k : ℕ, k < n ↔ Reaches b e s k := by
  have main : ∀ {b e s : ℤ}, 0 < s → b ≤ e →
      ((n : ℤ) = Views.rangeSize b e s ↔ ∀ k : ℕ, k < n ↔ Reaches b e s k) := by
    intro b e s hs hbe
    rw [rangeSize_pos hs hbe]
    refine forall_congr' fun k => ?_
    have : Reaches b e s k ↔ b + k * s ≤ e := by
      unfold Reaches
      constructor
      · rintro (⟨_, h⟩ | ⟨h, _⟩)
        · exact h
        · omega
      · exact fun h => .inl ⟨hs, h⟩
    rw [this]
    simp
  rcases h with ⟨hs, h⟩ | ⟨hs, h⟩
  · exact main hs (by simpa using h)
  · rw [rangeSize_neg, main (b := -b) (e := -e) (s := -s) (by omega) (by simp at h; omega)]
    exact forall_congr' fun k => by rw [reaches_neg (b := b)]

/-- A valid range with elements has no more elements than the dimension. -/
theorem rangeSize_le {b e s : ℤ} {d : ℕ} (hs : s ≠ 0) (hf : Reaches b e s 0 ∨ 0 < d)
    (h : InBounds (.range b e s) d) : Views.rangeSize b e s ≤ d := by
  by_cases h0 : Reaches b e s 0
  · have hnn : 0 ≤ Views.rangeSize b e s := by
      rw [Views.rangeSize]
      rcases h0 with ⟨h1, h2⟩ | ⟨h1, h2⟩
      · have := Int.tdiv_nonneg (a := e - b) (b := s) (by simp at h2; omega) (by omega)
        omega
      · have := Int.tdiv_nonneg_of_nonpos_of_nonpos (a := e - b) (b := s) (by simp at h2; omega)
          (by omega)
        omega
    have hn := (rangeSize_iff h0 (Views.rangeSize b e s).toNat).1 (by omega)
    by_contra hlt
    -- the element number `d` exists
    have hd := (hn d).1 (by omega)
    have e0 := h 0 h0
    have ed := h d hd
    simp only [Nat.cast_zero, zero_mul, add_zero] at e0
    rcases lt_or_gt_of_ne hs with h1 | h1
    · have : (d : ℤ) * s ≤ d * (-1) := Int.mul_le_mul_of_nonneg_left (by omega) (by omega)
      omega
    · have : (d : ℤ) * 1 ≤ d * s := Int.mul_le_mul_of_nonneg_left (by omega) (by omega)
      omega
  · have hd : 0 < d := hf.resolve_left h0
    have : (e - b).tdiv s ≤ 0 := by
      rcases lt_or_gt_of_ne hs with h1 | h1
      · have : 0 ≤ e - b := by
          by_contra hc
          exact h0 (.inr ⟨h1, by simp; omega⟩)
        exact Int.tdiv_nonpos_of_nonneg_of_nonpos this (by omega)
      · have : e - b ≤ 0 := by
          by_contra hc
          exact h0 (.inl ⟨h1, by simp; omega⟩)
        have := Int.tdiv_nonneg (a := -(e - b)) (b := s) (by omega) (by omega)
        rw [Int.neg_tdiv] at this
        omega
    rw [Views.rangeSize]
    omega

/-- What the checks of a view tell. -/
theorem view_iff {dims : List ℕ} {k : ℕ} {subs : List Sub} (h : k + subs.length ≤ dims.length) :
    Passes (view dims k subs) ↔ ∀ (j : ℕ) (s : Sub) (d : ℕ), subs[j]? = some s →
      dims[k + j]? = some d →
      match s with
      | .index i => 0 ≤ i ∧ i < d
      | .range b e s => Views.rangeSize b e s ≤ d
      | .unbounded => True := by
  induction subs generalizing k with
  | nil => exact ⟨fun _ j s d hj => by simp at hj, fun _ => passes_nil⟩
  | cons s ss ih =>
    have hk : k < dims.length := by simp at h; omega
    have hd : dims[k]? = some dims[k] := List.getElem?_eq_getElem hk
    have ih := ih (k := k + 1) (by simp at h; omega)
    have split : ∀ (P : Sub → ℕ → Prop), (∀ (j : ℕ) (s' : Sub) (d : ℕ), (s :: ss)[j]? = some s' →
        dims[k + j]? = some d → P s' d) ↔ P s dims[k] ∧
        ∀ (j : ℕ) (s' : Sub) (d : ℕ), ss[j]? = some s' → dims[k + 1 + j]? = some d → P s' d := by
      intro P
      constructor
      · intro H
        refine ⟨H 0 s _ rfl hd, fun j s' d h1 h2 => H (j + 1) s' d (by simpa using h1) ?_⟩
        rw [← h2]; congr 1; omega
      · rintro ⟨H0, H⟩ j s' d h1 h2
        cases j with
        | zero =>
          simp only [List.getElem?_cons_zero, Option.some.injEq] at h1
          rw [Nat.add_zero, hd, Option.some.injEq] at h2
          subst h1 h2
          exact H0
        | succ j =>
          refine H j s' d (by simpa using h1) ?_
          rw [← h2]; congr 1; omega
    rw [split fun s' d => match s' with
      | .index i => 0 ≤ i ∧ i < d
      | .range b e s => Views.rangeSize b e s ≤ d
      | .unbounded => True]
    rw [← ih]
    cases s with
    | index i => simp only [view, hd, passes_map_cons, Bool.and_eq_true, decide_eq_true_eq]
    | range b e s => simp only [view, hd, passes_map_cons, decide_eq_true_eq]
    | unbounded => simp only [view, true_and]

theorem divEW_iff (dims : List ℕ) (elem : List ℕ → ℚ) :
    (∀ c ∈ divEW dims elem, c = true) ↔
      ∀ p, List.Forall₂ (fun (i d : ℕ) => i < d) p dims → elem p ≠ 0 := by
  induction dims generalizing elem with
  | nil => simp [divEW, notZero]
  | cons d ds ih =>
    have : (∀ c ∈ divEW (d :: ds) elem, c = true) ↔
        ∀ i < d, ∀ c ∈ divEW ds (fun p => elem (i :: p)), c = true := by
      simp only [divEW, List.mem_flatMap, List.mem_range]
      constructor
      · intro h i hi c hc; exact h c ⟨i, hi, hc⟩
      · rintro h c ⟨i, hi, hc⟩; exact h i hi c hc
    rw [this]
    constructor
    · intro h p hp
      cases hp with
      | cons hi hp => exact (ih _).1 (h _ hi) _ hp
    · intro h i hi
      exact (ih _).2 fun p hp => h (i :: p) (.cons hi hp)

/-- The number of the ranges. -/
def ranges (subs : List Sub) : ℕ :=
  subs.countP fun s => match s with | .range .. => true | _ => false

theorem insertRest_iff {pre ds src : List ℕ} (h : src.length = ds.length) :
    Passes (insertRest (pre ++ ds) pre.length src) ↔ src = ds := by
  induction src generalizing pre ds with
  | nil =>
    cases ds with
    | nil => exact ⟨fun _ => rfl, fun _ => passes_nil⟩
    | cons _ _ => simp at h
  | cons n ns ih =>
    cases ds with
    | nil => simp at h
    | cons d ds =>
      have hd : (pre ++ d :: ds)[pre.length]? = some d := by simp
      have ih := ih (pre := pre ++ [d]) (ds := ds) (by simpa using h)
      simp only [List.append_assoc, List.singleton_append, List.length_append,
        List.length_singleton] at ih
      simp only [insertRest, hd]
      rw [passes_map_cons, ih, decide_eq_true_eq, List.cons.injEq]

/-- The checks of an insertion, from any point of the two loops on. -/
theorem insertSlice_iff {pre src dpre ds : List ℕ} {subs : List Sub}
    (hu : Sub.unbounded ∉ subs) (hf : Filled subs) (hl : subs.length ≤ ds.length)
    (h : src.length = ranges subs + (ds.length - subs.length)) :
    Passes ((insertSubs (pre ++ src) pre.length dpre.length subs).bind fun r =>
      (insertRest (dpre ++ ds) r.2.2 ((pre ++ src).drop r.2.1)).map fun cs => r.1 ++ cs) ↔
    Shape ds subs src := by
  induction subs generalizing pre src dpre ds with
  | nil =>
    simp only [insertSubs, Option.bind_some, List.drop_left, List.nil_append, Option.map_id']
    rw [insertRest_iff (by simpa [ranges] using h)]
    exact ⟨fun h => h ▸ .rest _, fun h => by cases h; rfl⟩
  | cons s ss ih =>
    have hu' : Sub.unbounded ∉ ss := fun h => hu (List.mem_cons_of_mem _ h)
    have hf' : Filled ss := fun b e s h => hf b e s (List.mem_cons_of_mem _ h)
    cases ds with
    | nil => simp at hl
    | cons d ds =>
      have hl' : ss.length ≤ ds.length := by simpa using hl
      have hdp : dpre ++ d :: ds = (dpre ++ [d]) ++ ds := by simp
      have hdl : dpre.length + 1 = (dpre ++ [d]).length := by simp
      cases s with
      | unbounded => exact absurd List.mem_cons_self hu
      | index i =>
        simp only [insertSubs]
        rw [hdp, hdl, ih hu' hf' hl' (by simpa [ranges] using h)]
        exact ⟨fun h => .index h, fun h => by cases h; assumption⟩
      | range b e s =>
        have hc : ranges (Sub.range b e s :: ss) = ranges ss + 1 := by simp [ranges]
        rw [hc] at h
        cases src with
        | nil => simp only [List.length_nil] at h; omega
        | cons n src =>
          have hs : (pre ++ n :: src)[pre.length]? = some n := by simp
          have hsp : pre ++ n :: src = (pre ++ [n]) ++ src := by simp
          have hsl : pre.length + 1 = (pre ++ [n]).length := by simp
          have ih := ih (pre := pre ++ [n]) (src := src) (dpre := dpre ++ [d]) hu' hf' hl'
            (by simp at h; omega)
          have e1 : ∀ (o : Option (List Bool × ℕ × ℕ)) (c : Bool) (g : ℕ × ℕ → Option (List Bool)),
              ((o.map fun r => (c :: r.1, r.2)).bind fun r => (g r.2).map fun cs => r.1 ++ cs) =
              (o.bind fun r => (g r.2).map fun cs => r.1 ++ cs).map fun cs => c :: cs := by
            intro o c g
            cases o with
            | none => rfl
            | some r => cases hg : g r.2 <;> simp [hg]
          simp only [insertSubs, hs]
          rw [e1 _ _ fun q => insertRest (dpre ++ d :: ds) q.2 ((pre ++ n :: src).drop q.1),
            passes_map_cons, decide_eq_true_eq, rangeSize_iff (hf b e s List.mem_cons_self)]
          rw [hsp, hdp, hsl, hdl, ih]
          exact ⟨fun h => .range h.1 h.2, fun h => by cases h; exact ⟨by assumption, by assumption⟩⟩

end Marco.Checks
