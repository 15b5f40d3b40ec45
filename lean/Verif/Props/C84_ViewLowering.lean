import Verif.Lemmas.TensorViews

/-! # C84 — the boundaries of ranges and the lowering of views and insertions -/

namespace Marco.Props
open Marco.Views Spec.Views

/-- The inference of the boundaries: no unbounded range remains, elements and dimensions are the
same. -/
def C84_infer : Prop :=
  ∀ t, ValidTensor t → AllSubs (·.isAll = false) (infer t) ∧ ValidTensor (infer t) ∧
    (∀ p r v x, Elem p (infer t) r v x ↔ Elem p t r v x) ∧ ∀ p, (infer t).dims p = t.dims p

/-- The lowering of a view: the slice has the dimensions and the elements of the view. -/
def C84_view : Prop :=
  ∀ t subs, ValidTensor (.view t subs) → (∀ s ∈ subs, s.isAll = false) → ∀ p,
    ∃ sl, lowerView p subs (t.dims p) = some sl ∧ sliceDims sl = (Tensor.view t subs).dims p ∧
      ∀ r q, SliceLocates sl r q ↔ Locates p subs r q ∧ q.length = (t.dims p).length

/-- The lowering of an insertion: the slice has the dimensions of the value, and each element goes
where the subscripts say. -/
def C84_insert : Prop :=
  ∀ i : Insert, ValidInsert i → (∀ s ∈ i.subs, s.isAll = false) → ∀ p, WritesInside p i →
    ∃ sl, lowerInsert p i.destination i.subs i.value = some sl ∧
      sliceDims sl = i.value.map (fun n : ℕ => (n : ℤ)) ∧
      ∀ r q, SliceLocates sl r q ↔ Locates p i.subs r q ∧ q.length = i.destination.length

/-- C84 at full strength. -/
def C84_full : Prop := C84_infer ∧ C84_view ∧ C84_insert

theorem C84_inferSubs_noAll (dim : Point → List ℤ) (k : ℕ) (subs : List Sub) :
    ∀ s ∈ inferSubs dim k subs, s.isAll = false := by
  induction subs generalizing k with
  | nil => simp [inferSubs]
  | cons s subs ih => cases s <;> simp [inferSubs, Sub.isAll] <;> exact ih (k + 1)

theorem C84_inferSubs_length (dim : Point → List ℤ) (k : ℕ) (subs : List Sub) :
    (inferSubs dim k subs).length = subs.length ∧
      (inferSubs dim k subs).countP Sub.isRange = subs.countP Sub.isRange := by
  induction subs generalizing k with
  | nil => simp [inferSubs]
  | cons s subs ih =>
    cases s <;> simp [inferSubs, List.countP_cons, Sub.isRange, ih (k + 1)]

theorem C84_inferSubs_locates (dim : Point → List ℤ) (k : ℕ) (subs : List Sub) (p r q : Point) :
    Locates p (inferSubs dim k subs) r q ↔ Locates p subs r q := by
  induction subs generalizing k r q with
  | nil => exact Iff.rfl
  | cons s subs ih =>
    cases s with
    | «at» f =>
      constructor
      · intro h
        cases h with | «at» _ h => exact .at f ((ih _ _ _).1 h)
      · intro h
        cases h with | «at» _ h => exact .at f ((ih _ _ _).2 h)
    | range b e s =>
      constructor
      · intro h
        cases h with | range _ _ _ i h => exact .range b e s i ((ih _ _ _).1 h)
      · intro h
        cases h with | range _ _ _ i h => exact .range b e s i ((ih _ _ _).2 h)
    | all =>
      constructor
      · intro h
        cases h with
        | range _ _ _ i h => simpa using Locates.all i ((ih _ _ _).1 h)
      · intro h
        cases h with
        | all i h =>
          have := Locates.range (fun _ => 0) (fun p => (dim p).getD k 0 + -1) (fun _ => 1) i
            ((ih (k + 1) _ _).2 h)
          rwa [Int.mul_one, Int.zero_add] at this

theorem C84_inferSubs_dims (dim : Point → List ℤ) (k : ℕ) (subs : List Sub) (p : Point) :
    viewDims p (inferSubs dim k subs) ((dim p).drop k) = viewDims p subs ((dim p).drop k) := by
  induction subs generalizing k with
  | nil => rfl
  | cons s subs ih =>
    cases s <;> simp [inferSubs, viewDims, ih (k + 1), rangeSize, Int.tdiv_one]

/-- The inference is right. -/
theorem C84_infer_partial : C84_infer := by
  intro t ht
  have hrank : ∀ t, (infer t).rank = t.rank := by
    intro t
    induction t with
    | src => rfl
    | view t subs ih =>
      have := C84_inferSubs_length (fun p => (infer t).dims p) 0 subs
      simp only [infer, Tensor.rank, this, ih]
  induction t with
  | src v shape => exact ⟨trivial, trivial, fun _ _ _ _ => Iff.rfl, fun _ => rfl⟩
  | view t subs ih =>
    obtain ⟨h1, h2, h3, h4⟩ := ih ht.1
    refine ⟨⟨h1, C84_inferSubs_noAll _ _ _⟩, ⟨h2, ?_⟩, fun p r v x => ?_, fun p => ?_⟩
    · rw [(C84_inferSubs_length _ _ _).1, hrank]
      exact ht.2
    · rw [infer, elem_view, elem_view]
      simp only [C84_inferSubs_locates, h3]
    · have := C84_inferSubs_dims (fun p => (infer t).dims p) 0 subs p
      simp only [List.drop_zero] at this
      rw [infer, Tensor.dims, this, Tensor.dims, h4]

theorem C84_rank_dims (t : Tensor) (ht : ValidTensor t) (p : Point) :
    (t.dims p).length = t.rank := by
  have key : ∀ (subs : List Sub) (ds : List ℤ), subs.length ≤ ds.length →
      (viewDims p subs ds).length = subs.countP Sub.isRange + (ds.length - subs.length) := by
    intro subs
    induction subs with
    | nil => simp [viewDims]
    | cons s subs ih =>
      intro ds h
      have := ih ds.tail (by simp at h ⊢; omega)
      simp only [List.length_cons, List.length_tail] at h this
      cases s <;> simp [viewDims, List.countP_cons, Sub.isRange, this] <;> omega
  induction t with
  | src => simp [Tensor.dims, Tensor.rank]
  | view t subs ih =>
    have h1 := ih ht.1
    rw [Tensor.dims, key _ _ (h1 ▸ ht.2), Tensor.rank, h1]

theorem C84_full_dims (ds : List ℤ) (r q : Point) :
    SliceLocates (ds.map fun n => ⟨0, n, 1, true⟩) r q ↔ q = r ∧ q.length = ds.length := by
  induction ds generalizing r q with
  | nil =>
    constructor
    · intro h; cases h; simp
    · rintro ⟨rfl, h⟩
      obtain rfl := List.length_eq_zero_iff.1 h
      exact .nil
  | cons d ds ih =>
    constructor
    · intro h
      cases h with
      | kept _ _ _ i h =>
        obtain ⟨rfl, h2⟩ := (ih _ _).1 h
        simp [h2]
    · rintro ⟨rfl, h⟩
      cases q with
      | nil => simp at h
      | cons i q =>
        simpa using SliceLocates.kept 0 d 1 i ((ih q q).2 ⟨rfl, by simpa using h⟩)

/-- The lowering of views is right. -/
theorem C84_view_partial : C84_view := by
  intro t subs ht ha p
  have hlen : subs.length ≤ (t.dims p).length := C84_rank_dims t ht.1 p ▸ ht.2
  rw [Tensor.dims]
  generalize t.dims p = ds at hlen
  clear ht
  induction subs generalizing ds with
  | nil =>
    refine ⟨_, rfl, ?_, fun r q => ?_⟩
    · simp only [sliceDims, viewDims, List.filter_map]
      induction ds with
      | nil => rfl
      | cons d ds ih => simpa using ih
    · rw [C84_full_dims]
      constructor
      · rintro ⟨rfl, h⟩
        exact ⟨.nil _, h⟩
      · rintro ⟨h1, h2⟩
        cases h1
        exact ⟨rfl, h2⟩
  | cons s subs ih =>
    have ha' : ∀ s ∈ subs, s.isAll = false := fun s hs => ha s (List.mem_cons_of_mem _ hs)
    cases ds with
    | nil => simp at hlen
    | cons d ds =>
      obtain ⟨sl, h1, h2, h3⟩ := ih ha' ds (by simpa using hlen)
      cases s with
      | «at» f =>
        refine ⟨⟨f p, 1, 1, false⟩ :: sl, by simp [lowerView, h1], ?_, fun r q => ?_⟩
        · simp only [sliceDims] at h2
          simp [sliceDims, viewDims, h2]
        · constructor
          · intro h
            cases h with
            | dropped _ _ h =>
              obtain ⟨h4, h5⟩ := (h3 _ _).1 h
              exact ⟨.at f h4, by simp [h5]⟩
          · rintro ⟨h, h5⟩
            cases h with
            | «at» _ h => exact .dropped _ _ ((h3 _ _).2 ⟨h, by simpa using h5⟩)
      | range b e s =>
        refine ⟨⟨b p, rangeSize (b p) (e p) (s p), s p, true⟩ :: sl, by simp [lowerView, h1], ?_,
          fun r q => ?_⟩
        · simp only [sliceDims] at h2
          simp [sliceDims, viewDims, h2]
        · rw [sliceLocates_kept, locates_range]
          constructor
          · rintro ⟨i, r', q', rfl, rfl, h⟩
            obtain ⟨h4, h5⟩ := (h3 _ _).1 h
            exact ⟨⟨i, r', q', rfl, rfl, h4⟩, by simp [h5]⟩
          · rintro ⟨⟨i, r', q', rfl, rfl, h⟩, h5⟩
            exact ⟨i, r', q', rfl, rfl, (h3 _ _).2 ⟨h, by simpa using h5⟩⟩
      | all => simp [Sub.isAll] at ha

/-- The subscripts that the lowering of insertions stands for: a range with a negative step starts
at its end. -/
def C84_written : Sub → Sub
  | .range b e s => .range (fun p => if 0 ≤ s p then b p else e p) e s
  | s => s

/-- What the lowering of insertions does. -/
theorem C84_insert_result (i : Insert) (hi : ValidInsert i) (ha : ∀ s ∈ i.subs, s.isAll = false)
    (p : Point) :
    ∃ sl, lowerInsert p i.destination i.subs i.value = some sl ∧
      sliceDims sl = i.value.map (fun n : ℕ => (n : ℤ)) ∧
      ∀ r q, SliceLocates sl r q ↔
        Locates p (i.subs.map C84_written) r q ∧ q.length = i.destination.length := by
  obtain ⟨destination, value, subs⟩ := i
  obtain ⟨hlen, hval⟩ := hi
  simp only at hlen hval ha ⊢
  induction destination generalizing subs value with
  | nil =>
    obtain rfl : subs = [] := List.length_eq_zero_iff.1 (by simpa using hlen)
    obtain rfl : value = [] := List.length_eq_zero_iff.1 (by simpa using hval)
    refine ⟨[], rfl, rfl, fun r q => ⟨?_, ?_⟩⟩
    · intro h; cases h; exact ⟨.nil [], rfl⟩
    · rintro ⟨h, h'⟩
      obtain rfl : q = [] := List.length_eq_zero_iff.1 (by simpa using h')
      cases h
      exact .nil
  | cons d ds ih =>
    cases subs with
    | nil =>
      cases value with
      | nil => simp at hval
      | cons n value =>
        obtain ⟨sl, h1, h2, h3⟩ := ih value [] (by simp) (by simp) (by simpa using hval)
        refine ⟨⟨0, n, 1, true⟩ :: sl, by simp [lowerInsert, h1], ?_, fun r q => ?_⟩
        · simp only [sliceDims] at h2
          simp [sliceDims, h2]
        · constructor
          · intro h
            cases h with
            | kept _ _ _ i h =>
              obtain ⟨h4, h5⟩ := (h3 _ _).1 h
              cases h4
              simpa [h5] using Locates.nil _
          · rintro ⟨h, h5⟩
            cases h
            cases r with
            | nil => simp at h5
            | cons i r =>
              simpa using SliceLocates.kept 0 n 1 i ((h3 r r).2 ⟨.nil r, by simpa using h5⟩)
    | cons s subs =>
      have ha' : ∀ s ∈ subs, s.isAll = false := fun s hs => ha s (List.mem_cons_of_mem _ hs)
      cases s with
      | «at» f =>
        obtain ⟨sl, h1, h2, h3⟩ := ih value subs ha' (by simpa using hlen)
          (by simpa [List.countP_cons, Sub.isRange] using hval)
        refine ⟨⟨f p, 1, 1, false⟩ :: sl, by simp [lowerInsert, h1], ?_, fun r q => ?_⟩
        · simp only [sliceDims] at h2
          simp [sliceDims, h2]
        · constructor
          · intro h
            cases h with
            | dropped _ _ h =>
              obtain ⟨h4, h5⟩ := (h3 _ _).1 h
              exact ⟨.at f h4, by simp [h5]⟩
          · rintro ⟨h, h5⟩
            cases h with
            | «at» _ h => exact .dropped _ _ ((h3 _ _).2 ⟨h, by simpa using h5⟩)
      | range b e s =>
        cases value with
        | nil => simp [List.countP_cons, Sub.isRange] at hval; omega
        | cons n value =>
          obtain ⟨sl, h1, h2, h3⟩ := ih value subs ha' (by simpa using hlen)
            (by simp [List.countP_cons, Sub.isRange] at hval; omega)
          refine ⟨⟨if 0 ≤ s p then b p else e p, n, s p, true⟩ :: sl, by simp [lowerInsert, h1], ?_,
            fun r q => ?_⟩
          · simp only [sliceDims] at h2
            simp [sliceDims, h2]
          · constructor
            · intro h
              cases h with
              | kept _ _ _ _ h =>
                obtain ⟨h4, h5⟩ := (h3 _ _).1 h
                exact ⟨.range _ e s _ h4, by simp [h5]⟩
            · rintro ⟨h, h5⟩
              cases h with
              | range _ _ _ _ h => exact .kept _ _ _ _ ((h3 _ _).2 ⟨h, by simpa using h5⟩)
      | all => simp [Sub.isAll] at ha

/-- Insertions without negative steps are right. -/
theorem C84_insert_partial (i : Insert) (hi : ValidInsert i) (ha : ∀ s ∈ i.subs, s.isAll = false)
    (p : Point) (hs : ∀ b e s, Sub.range b e s ∈ i.subs → 0 ≤ s p) :
    ∃ sl, lowerInsert p i.destination i.subs i.value = some sl ∧
      sliceDims sl = i.value.map (fun n : ℕ => (n : ℤ)) ∧
      ∀ r q, SliceLocates sl r q ↔ Locates p i.subs r q ∧ q.length = i.destination.length := by
  have key : ∀ subs : List Sub, (∀ b e s, Sub.range b e s ∈ subs → 0 ≤ s p) → ∀ r q,
      Locates p (subs.map C84_written) r q ↔ Locates p subs r q := by
    intro subs
    induction subs with
    | nil => intro _ r q; exact Iff.rfl
    | cons s subs ih =>
      intro h r q
      have ih := ih fun b e s hm => h b e s (List.mem_cons_of_mem _ hm)
      cases s with
      | «at» f =>
        constructor
        · intro h
          cases h with | «at» _ h => exact .at f ((ih _ _).1 h)
        · intro h
          cases h with | «at» _ h => exact .at f ((ih _ _).2 h)
      | range b e s =>
        have h0 := h b e s (List.mem_cons_self ..)
        constructor
        · intro h
          cases h with
          | range _ _ _ i h =>
            simp only [if_pos h0]
            exact .range b e s i ((ih _ _).1 h)
        · intro h
          cases h with
          | range _ _ _ i h =>
            have := Locates.range (fun p => if 0 ≤ s p then b p else e p) e s i ((ih _ _).2 h)
            simp only [if_pos h0] at this
            exact this
      | all =>
        constructor
        · intro h
          cases h with | all i h => exact .all i ((ih _ _).1 h)
        · intro h
          cases h with | all i h => exact .all i ((ih _ _).2 h)
  obtain ⟨sl, h1, h2, h3⟩ := C84_insert_result i hi ha p
  exact ⟨sl, h1, h2, fun r q => (h3 r q).trans (by rw [key i.subs hs])⟩

/-- With a negative step every element of a vector goes to a wrong place, and the first element
after the first goes beyond the end of the range. -/
theorem C84_insert_wrong (d n : ℕ) (b e s : ℤ) (hs : s < 0) (hb : b ≠ e) (p : Point) (k : ℤ) :
    ∃ sl, lowerInsert p [d] [.range (fun _ => b) (fun _ => e) (fun _ => s)] [n] = some sl ∧
      (∀ q, SliceLocates sl [k] q ↔ q = [e + k * s]) ∧
      (∀ q, SliceLocates sl [k] q → ¬ Locates p [.range (fun _ => b) (fun _ => e) (fun _ => s)] [k] q) := by
  refine ⟨[⟨e, n, s, true⟩], by simp [lowerInsert, not_le.2 hs], fun q => ⟨?_, ?_⟩, ?_⟩
  · intro h
    cases h with | kept _ _ _ _ h => cases h; rfl
  · rintro rfl
    exact .kept _ _ _ _ .nil
  · intro q h h'
    rw [sliceLocates_kept] at h
    rw [locates_range] at h'
    obtain ⟨i, r, q', h1, rfl, -⟩ := h
    obtain ⟨j, r', q'', h2, h3, -⟩ := h'
    obtain ⟨rfl, rfl⟩ := List.cons.inj h1
    obtain ⟨rfl, rfl⟩ := List.cons.inj h2
    have h4 := (List.cons.inj h3).1
    omega

/-- `x[3:-1:1] := v`: written are the elements 0, -1 and -2 of the vector. -/
def C84_reversed : Insert :=
  ⟨[3], [3], [.range (fun _ => 2) (fun _ => 0) (fun _ => -1)]⟩

theorem C84_inside : WritesInside [] C84_reversed := by
  intro r q hr hl
  obtain ⟨i, r', q', rfl, rfl, hl'⟩ := locates_range.1 hl
  obtain rfl : q' = r' := by cases hl'; rfl
  cases hr with
  | cons h1 h2 =>
    obtain rfl : q' = [] := List.length_eq_zero_iff.1 h2.length_eq
    refine .cons ⟨?_, ?_⟩ .nil <;> simp at h1 ⊢ <;> omega

theorem C84_full_false : ¬ C84_full := by
  rintro ⟨-, -, h⟩
  obtain ⟨sl, h1, _, h3⟩ := h C84_reversed ⟨by decide, by decide⟩
    (by simp [C84_reversed, Sub.isAll]) [] C84_inside
  obtain ⟨sl', h4, h5, h6⟩ := C84_insert_wrong 3 3 2 0 (-1) (by decide) (by decide) [] 1
  obtain rfl : sl = sl' := Option.some.inj (h1.symm.trans h4)
  have h7 := (h5 [-1]).2 rfl
  exact h6 _ h7 ((h3 _ _).1 h7).1

/-- `x[:, 2, 6:-2:1]` of a tensor of rank 4. -/
def C84_example : Tensor :=
  .view (.src "x" [4, 3, 7, 2]) [.all, .at fun _ => 1, .range (fun _ => 5) (fun _ => 0) (fun _ => -2)]

/-- The hypotheses of the theorems on views. -/
example : ValidTensor C84_example ∧ (infer C84_example).dims [] = [4, 3, 2] :=
  ⟨⟨trivial, by decide⟩, by decide⟩

/-- The hypotheses of the theorem on insertions: `x[2:2:6, 3] := v`. -/
example : ValidInsert ⟨[7, 4], [3], [.range (fun _ => 1) (fun _ => 5) (fun _ => 2), .at fun _ => 2]⟩ ∧
    ∀ b e s, Sub.range b e s ∈
      [Sub.range (fun _ => 1) (fun _ => 5) (fun _ => 2), .at fun _ => 2] → 0 ≤ s [] := by
  refine ⟨⟨by decide, by decide⟩, ?_⟩
  intro b e s h
  simp only [List.mem_cons, List.not_mem_nil, or_false, Sub.range.injEq, reduceCtorEq] at h
  rw [h.2.2]
  decide

/-- The number of elements of a view is the number of points of the range, if there is one. -/
theorem C84_size (b e s : ℤ) (h : (0 < s ∧ b ≤ e) ∨ (s < 0 ∧ e ≤ b)) (k : ℕ) :
    (k : ℤ) < rangeSize b e s ↔ (0 < s ∧ b + k * s ≤ e) ∨ (s < 0 ∧ e ≤ b + k * s) := by
  unfold rangeSize
  rcases h with ⟨hs, h⟩ | ⟨hs, h⟩
  · rw [Int.tdiv_eq_ediv_of_nonneg (by omega)]
    have := Int.le_ediv_iff_mul_le (a := (k : ℤ)) (b := e - b) hs
    constructor
    · intro hk
      exact .inl ⟨hs, by have := this.mp (by omega); omega⟩
    · rintro (⟨_, hk⟩ | ⟨hn, _⟩)
      · have := this.mpr (by omega)
        omega
      · omega
  · have hq : (e - b).tdiv s = (b - e) / (-s) := by
      rw [← Int.tdiv_eq_ediv_of_nonneg (by omega), ← Int.neg_tdiv_neg]
      congr 1
      omega
    rw [hq]
    have := Int.le_ediv_iff_mul_le (a := (k : ℤ)) (b := b - e) (c := -s) (by omega)
    rw [Int.mul_neg] at this
    constructor
    · intro hk
      exact .inr ⟨hs, by have := this.mp (by omega); omega⟩
    · rintro (⟨hn, _⟩ | ⟨_, hk⟩)
      · omega
      · have := this.mpr (by omega)
        omega

/-- `5:-2:0` has three points. -/
example : rangeSize 5 0 (-2) = 3 ∧ ∀ k : ℕ, (k : ℤ) < rangeSize 5 0 (-2) ↔
    ((0 : ℤ) < -2 ∧ (5 : ℤ) + k * -2 ≤ 0) ∨ ((-2 : ℤ) < 0 ∧ (0 : ℤ) ≤ 5 + k * -2) :=
  ⟨by decide, C84_size 5 0 (-2) (by decide)⟩

end Marco.Props
