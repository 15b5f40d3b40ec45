import Verif.Lemmas.ArrayMemory

/-!
# C115: arrays in memory have the elements they are given
-/

namespace Marco.Props
open Marco.ArrMem Marco.Spec.ArrMem

/-- The array built from a list of values has them by rows. -/
def C115_elements {V : Type} (dims : List Nat) (values : List V) : Prop :=
  ∃ arr, fromElements dims values = .ok arr ∧
    ∀ idx : List Nat, List.Forall₂ (· < ·) idx dims → arr idx = values[position dims idx]?

/-- What a view is: its sizes, and that each element is the one of the source that the subscripts choose. -/
def C115_viewOf (subs : List Sub) (m v : MemRef) : Prop :=
  v.dims.map Prod.fst = sizes subs (m.dims.map Prod.fst) ∧
    ∀ idx, Within (sizes subs (m.dims.map Prod.fst)) idx → v.addr idx = m.addr (select subs idx)

/-- The subscriptions that are admitted: not more subscripts than dimensions, a static shape that is the one at run time, and
ranges that are not empty. -/
def C115_fits (subs : List Sub) (shape : List (Option Nat)) (m : MemRef) : Prop :=
  subs.length ≤ m.dims.length ∧ Agrees shape (m.dims.map Prod.fst) ∧ ∀ s ∈ subs, Proper s

/-- The full claim. -/
def C115_full : Prop :=
  (∀ (dims : List Nat) (values : List Int), values.length = dims.prod → C115_elements dims values) ∧
  (∀ subs shape m, C115_fits subs shape m → ∃ v, lowerSubscription subs shape m = .ok v ∧ C115_viewOf subs m v) ∧
  (∀ chain subs idx, mergeSubs chain = some subs → select subs idx = chain.foldr select idx) ∧
  (∀ subs l idx, mergeAccess subs idx = some l → select l [] = select subs idx)

/-- Arrays without a dimension of size 0. -/
theorem C115_elements_partial {V : Type} (dims : List Nat) (values : List V) (hl : values.length = dims.prod)
    (hd : ∀ d ∈ dims, 0 < d) : C115_elements dims values := by
  have hz : (dims.map fun _ => 0).reverse = dims.reverse.map fun _ => 0 := by rw [List.map_reverse]
  have hb := below_zeros dims.reverse fun d h => hd d (by simpa using h)
  obtain ⟨arr, h1, _, h3, _⟩ := fromLoop_spec dims.reverse (dims.reverse.map fun _ => 0) values (fun _ => none) hb
    (by rw [le_zeros, List.prod_reverse]; simpa using hl)
  refine ⟨arr, by rw [fromElements, hz]; exact h1, ?_⟩
  intro idx hidx
  have hlen := hidx.length_eq
  have hr : Below idx.reverse dims.reverse := List.rel_reverse hidx
  have := h3 idx.reverse hr (by rw [le_zeros]; omega)
  rw [List.reverse_reverse, le_zeros, le_reverse idx dims hlen, Nat.sub_zero] at this
  exact this

example : ∀ idx : List Nat, List.Forall₂ (· < ·) idx [2, 3] →
    ∃ arr, fromElements [2, 3] [10, 11, 12, 20, 21, 22] = .ok arr ∧
      arr idx = [10, 11, 12, 20, 21, 22][position [2, 3] idx]? := by
  intro idx h
  obtain ⟨arr, h1, h2⟩ := C115_elements_partial [2, 3] [10, 11, 12, 20, 21, 22] rfl (by decide)
  exact ⟨arr, h1, h2 idx h⟩

/-- An array with a dimension of size 0: a value is read outside of the list of the values. -/
theorem C115_empty_undefined {V : Type} (dims : List Nat) (values : List V) (hl : values.length = dims.prod) (hd : 0 ∈ dims) :
    fromElements dims values = .ub := by
  have h0 : dims.prod = 0 := by
    clear hl
    induction dims with
    | nil => simp at hd
    | cons d ds ih =>
      rcases List.mem_cons.1 hd with h | h
      · simp [← h]
      · simp [ih h]
  have hv : values = [] := List.length_eq_zero_iff.1 (by omega)
  subst hv
  rfl

example : fromElements [2, 0] ([] : List Int) = .ub := C115_empty_undefined _ _ rfl (by decide)

/-- Filling an array: its elements have the value, no other cell is changed. -/
theorem C115_fill {V W : Type} (cast : V → W) (m : MemRef) (v : V) (mem : Int → W) (a : Int)
    (hp : ∀ n ∈ m.dims.map Prod.fst, 0 ≤ n) :
    ((∃ idx, Within (m.dims.map Prod.fst) idx ∧ m.addr idx = a) → fill cast m v mem a = cast v) ∧
    ((∀ idx, Within (m.dims.map Prod.fst) idx → m.addr idx ≠ a) → fill cast m v mem a = mem a) := by
  have hu : ((m.dims.map fun d => d.1.toNat).map fun (u : Nat) => (u : Int)) = m.dims.map Prod.fst := by
    rw [List.map_map]
    apply List.map_congr_left
    intro d hd
    exact Int.toNat_of_nonneg (hp _ (List.mem_map_of_mem hd))
  have hmem : ∀ p, p ∈ visits (m.dims.map fun d => d.1.toNat) [] ↔ Within (m.dims.map Prod.fst) p := by
    intro p
    rw [mem_visits, hu]
    simp
  unfold fill
  rw [loopNest_eq]
  obtain ⟨h1, h2⟩ := foldl_store m (fun _ => cast v) (visits (m.dims.map fun d => d.1.toNat) []) mem a
  constructor
  · rintro ⟨idx, hw, ha⟩
    obtain ⟨_, _, _, hq⟩ := h2 idx ((hmem idx).2 hw) ha
    exact hq
  · intro h
    exact h1 fun p hp => h p ((hmem p).1 hp)

example : fill (fun (n : Int) => n + 1) ⟨3, [(2, 4), (2, -1)]⟩ 6 (fun a => a) 6 = 7 := by
  refine (C115_fill (fun (n : Int) => n + 1) ⟨3, [(2, 4), (2, -1)]⟩ 6 (fun a => a) 6 (by decide)).1 ⟨[1, 1], ⟨rfl, ?_⟩, by decide⟩
  intro k i n hi hn
  match k with
  | 0 => cases hi; cases hn; decide
  | 1 => cases hi; cases hn; decide
  | k + 2 => simp at hi

/-- The bounds of the loops of a copy. -/
theorem C115_copyBounds (sty dty : List (Option Nat)) (dims : List (Int × Int)) (hs : Agrees sty (dims.map Prod.fst))
    (hd : Agrees dty (dims.map Prod.fst)) (hp : ∀ n ∈ dims.map Prod.fst, 0 ≤ n) :
    (copyBounds sty dty dims).map (fun (u : Nat) => (u : Int)) = dims.map Prod.fst := by
  induction dims generalizing sty dty with
  | nil => cases sty <;> cases dty <;> rfl
  | cons d dims ih =>
    match sty, dty, hs, hd with
    | [], _, hs, _ => simp [Agrees] at hs
    | _ :: _, [], _, hd => simp [Agrees] at hd
    | s :: sty, t :: dty, hs, hd =>
      rw [List.map_cons] at hs hd
      obtain ⟨s1, s2⟩ := agrees_cons hs
      obtain ⟨d1, d2⟩ := agrees_cons hd
      simp only [copyBounds, List.map_cons, ih sty dty s2 d2 fun n hn => hp n (by simp [hn])]
      rw [List.cons.injEq]
      refine ⟨?_, rfl⟩
      cases s with
      | some n => exact (s1 n rfl).symm
      | none =>
        cases t with
        | some n => exact (d1 n rfl).symm
        | none => exact Int.toNat_of_nonneg (hp _ (by simp))

/-- Copying an array to one with elements of another type, of the same sizes, whose elements are different cells: each element
has the cast value, no other cell is changed. -/
theorem C115_copy {V W : Type} (cast : V → W) (sty dty : List (Option Nat)) (src dst : MemRef) (smem : Int → V) (dmem : Int → W)
    (hsize : src.dims.map Prod.fst = dst.dims.map Prod.fst) (hp : ∀ n ∈ src.dims.map Prod.fst, 0 ≤ n)
    (hs : Agrees sty (src.dims.map Prod.fst)) (hd : Agrees dty (dst.dims.map Prod.fst))
    (hinj : ∀ i j, Within (dst.dims.map Prod.fst) i → Within (dst.dims.map Prod.fst) j → dst.addr i = dst.addr j → i = j) :
    (∀ idx, Within (dst.dims.map Prod.fst) idx →
      copy cast sty dty src dst smem dmem (dst.addr idx) = cast (smem (src.addr idx))) ∧
    (∀ a, (∀ idx, Within (dst.dims.map Prod.fst) idx → dst.addr idx ≠ a) → copy cast sty dty src dst smem dmem a = dmem a) := by
  have hu := C115_copyBounds sty dty src.dims hs (by rw [hsize]; exact hd) hp
  have hmem : ∀ p, p ∈ visits (copyBounds sty dty src.dims) [] ↔ Within (dst.dims.map Prod.fst) p := by
    intro p
    rw [mem_visits, hu, hsize]
    simp
  unfold copy
  rw [loopNest_eq]
  have key := foldl_store dst (fun p => cast (smem (src.addr p))) (visits (copyBounds sty dty src.dims) []) dmem
  constructor
  · intro idx hw
    obtain ⟨q, hq, hqa, hqe⟩ := (key (dst.addr idx)).2 idx ((hmem idx).2 hw) rfl
    have := hinj q idx ((hmem q).1 hq) hw hqa
    subst this
    exact hqe
  · intro a h
    exact (key a).1 fun p hp => h p ((hmem p).1 hp)

example : copy (fun n : Int => (n, true)) [none] [some 2] ⟨5, [(2, 3)]⟩ ⟨0, [(2, 1)]⟩ (fun a => a) (fun _ => (0, false)) 1 =
    (8, true) := by
  have h := (C115_copy (fun n : Int => (n, true)) [none] [some 2] ⟨5, [(2, 3)]⟩ ⟨0, [(2, 1)]⟩ (fun a => a)
    (fun _ => (0, false)) rfl (by decide) ⟨rfl, by intro k c n hc; match k with
      | 0 => simp at hc
      | k + 1 => simp at hc⟩ ⟨rfl, by intro k c n hc hn; match k with
      | 0 => cases hc; cases hn; rfl
      | k + 1 => simp at hc⟩ (by
      rintro i j ⟨hi, _⟩ ⟨hj, _⟩ h
      match i, j, hi, hj with
      | [a], [b], _, _ => simpa [MemRef.addr, dot] using h)).1 [1] ⟨rfl, by
      intro k i n hi hn
      match k with
      | 0 => cases hi; cases hn; decide
      | k + 1 => simp at hi⟩
  exact h

/-- A view, when the cast of its type is folded into the operations that use it and no range is a constant, or no subscript is an
index. -/
theorem C115_view_partial (subs : List Sub) (shape : List (Option Nat)) (m : MemRef) (h : C115_fits subs shape m)
    (hc : (∀ s ∈ subs, ∀ b e t, s ≠ .range true b e t) ∨ ∀ s ∈ subs, s.isRange = true) :
    ∃ v, subview subs shape m = .ok v ∧ C115_viewOf subs m v := by
  obtain ⟨hs, ha, hp⟩ := h
  have hsz := viewSizes_eq subs (m.dims.map Prod.fst) hp
  rcases hc with hf | hi
  · obtain ⟨ks, h1, h2, h3⟩ := keep_view subs shape m.dims 0 (inferShape subs shape) hs ha hf rfl
    refine ⟨⟨m.offset + viewOffset (items subs shape m.dims) m.dims, viewDims ks (items subs shape m.dims) m.dims⟩, ?_, ?_, ?_⟩
    · simp only [subview, h1]
      split_ifs with hl
      · rw [keep_all h1 hl]
      · rfl
    · rw [← hsz, h2]; rfl
    · intro idx hw
      rw [← hsz] at hw
      have := h3 idx (oneZero _ _ _ (agrees_infer subs shape _ ha hf) hw)
      simp only [List.replicate_zero, List.nil_append] at this
      simp only [MemRef.addr]
      linear_combination this
  · obtain ⟨h1, h2, h3⟩ := all_view subs shape m.dims hs ha hi
    refine ⟨⟨m.offset + viewOffset (items subs shape m.dims) m.dims,
      viewDims ((items subs shape m.dims).map fun _ => true) (items subs shape m.dims) m.dims⟩, ?_, ?_, ?_⟩
    · simp only [subview]
      rw [if_pos h1]
    · rw [← hsz, ← h2]
    · intro idx hw
      rw [← hsz] at hw
      have := h3 idx (by rw [hw.1, sizes_length subs _ hi]; simp)
      simp only [MemRef.addr]
      linear_combination this

namespace C115_Sample
/-- An array of 4 × 1 × 6, by rows. -/
def m : MemRef := ⟨0, [(4, 6), (1, 6), (6, 1)]⟩
/-- `m[2]`: the first dimension is taken for the second one, as both have size 1. -/
def subs : List Sub := [.index 2]

theorem fits : C115_fits [.index 2, .range false 0 0 1, .range false 4 0 (-2)] [some 4, some 1, none] m := by
  refine ⟨by decide, ⟨rfl, ?_⟩, ?_⟩
  · intro k c n hk hn
    match k with
    | 0 => cases hk; cases hn; rfl
    | 1 => cases hk; cases hn; rfl
    | 2 => simp at hk
    | k + 3 => simp at hk
  · intro s hs
    simp only [List.mem_cons, List.not_mem_nil, or_false] at hs
    rcases hs with rfl | rfl | rfl <;> simp [Proper]

theorem fits_one : C115_fits subs [some 4, some 1, none] m := by
  refine ⟨by decide, fits.2.1, ?_⟩
  intro s hs
  simp only [subs, List.mem_cons, List.not_mem_nil, or_false] at hs
  subst hs
  trivial

end C115_Sample

example : ∃ v, subview [.index 2, .range false 0 0 1, .range false 4 0 (-2)] [some 4, some 1, none] C115_Sample.m = .ok v ∧
    C115_viewOf [.index 2, .range false 0 0 1, .range false 4 0 (-2)] C115_Sample.m v :=
  C115_view_partial _ _ _ C115_Sample.fits (.inl (by simp))

example : subview [.index 2, .range false 0 0 1, .range false 4 0 (-2)] [some 4, some 1, none] C115_Sample.m =
    .ok ⟨16, [(1, 6), (3, -2)]⟩ := by decide

example : ∃ v, subview C115_Sample.subs [some 4, some 1, none] C115_Sample.m = .ok v ∧
    C115_viewOf C115_Sample.subs C115_Sample.m v :=
  C115_view_partial _ _ _ C115_Sample.fits_one (.inl (by simp [C115_Sample.subs]))

/-- The cast to the type without a layout: a row other than the first of an array is not defined. -/
theorem C115_row_undefined (n k : Nat) (i : Int) (hi : i ≠ 0) (hk : k ≠ 0) :
    lowerSubscription [.index i] [some n, some k] ⟨0, [(n, k), (k, 1)]⟩ = .ub := by
  have hoff : ∀ v, subview [.index i] [some n, some k] ⟨0, [(n, k), (k, 1)]⟩ = .ok v → v.offset = i * k := by
    intro v hv
    simp only [subview, items, inferShape, List.length_cons, List.length_nil, viewOffset] at hv
    rw [if_neg (by decide)] at hv
    split at hv
    · cases hv; simp
    · cases hv
  unfold lowerSubscription
  cases hv : subview [.index i] [some n, some k] ⟨0, [(n, k), (k, 1)]⟩ with
  | ub => rfl
  | ok v =>
    have h := hoff v hv
    simp only [castIdentity]
    rw [if_neg]
    rintro ⟨h0, _⟩
    rw [h0] at h
    rcases mul_eq_zero.1 h.symm with h | h
    · exact hi h
    · exact hk (by simpa using h)

example : lowerSubscription [.index 1] [some 2, some 2] ⟨0, [(2, 2), (2, 1)]⟩ = .ub := C115_row_undefined 2 2 1 (by decide) (by decide)

/-- An index and a constant range: the static size of the result does not fit the size of the subview, which is not static. -/
theorem C115_fixed_undefined (n k : Nat) (i b e s : Int) (h : (rangeSize b e s).toNat ≠ 1) (m : MemRef) (hm : m.dims.length = 2) :
    subview [.index i, .range true b e s] [some n, some k] m = .ub := by
  obtain ⟨off, dims⟩ := m
  match dims, hm with
  | [d1, d2], _ =>
    have h1 : ¬ some 1 = some (rangeSize b e s).toNat := by
      intro hh
      exact h (Option.some.inj hh).symm
    simp [subview, items, inferShape, keep, h1]

example : subview [.index 0, .range true 1 3 1] [some 2, some 5] ⟨0, [(2, 5), (5, 1)]⟩ = .ub :=
  C115_fixed_undefined 2 5 0 1 3 1 (by decide) _ rfl

/-- Merging subscriptions, none of which but the last one has ranges. -/
theorem C115_merge_partial (pre : List (List Sub)) (last subs : List Sub) (idx : List Int)
    (hp : ∀ p ∈ pre, ∀ s ∈ p, s.isRange = false) (h : mergeSubs (pre ++ [last]) = some subs) :
    select subs idx = (pre ++ [last]).foldr select idx := by
  have hs : subs = (pre ++ [last]).flatten := by
    match pre, h with
    | [], h => simp [mergeSubs] at h
    | [a], h => simpa [mergeSubs] using h.symm
    | a :: b :: pre, h => simpa [mergeSubs] using h.symm
  subst hs
  clear h
  induction pre with
  | nil => simp
  | cons p pre ih =>
    rw [List.cons_append, List.flatten_cons, select_append _ _ _ (hp p (by simp)), ih fun q hq => hp q (by simp [hq])]
    rfl

example : select [.index 2, .index 3, .range false 1 7 2, .index 0] [1, 5] = [2, 3, 3, 0, 5] := by
  exact (C115_merge_partial [[.index 2], [.index 3]] [.range false 1 7 2, .index 0] _ [1, 5] (by decide) rfl).trans (by decide)

/-- A row of a range of rows: the subscript is applied to the columns. -/
theorem C115_merge_fails : mergeSubs [[.range false 1 3 1], [.index 0]] = some [.range false 1 3 1, .index 0] ∧
    select [.range false 1 3 1, .index 0] [2] = [3, 0] ∧
    [[.range false 1 3 1], [.index 0]].foldr select [2] = [1, 2] := by decide

/-- Merging a subscription into a load or a store. -/
theorem C115_access (subs l : List Sub) (idx : List Int) (h : mergeAccess subs idx = some l) : select l [] = select subs idx := by
  unfold mergeAccess at h
  split_ifs at h with hr
  cases h
  rw [select_append, select_indices]
  intro s hs
  simp only [List.any_eq_true, not_exists, not_and] at hr
  simpa using hr s hs

example : mergeAccess [.index 2] [1, 4] = some [.index 2, .index 1, .index 4] ∧
    mergeAccess [.range false 0 3 1] [1, 4] = none := by decide

/-- The full claim does not hold. -/
theorem C115_full_false : ¬ C115_full := by
  intro h
  have := h.2.2.1 [[.range false 1 3 1], [.index 0]] _ [2] rfl
  exact absurd this (by decide)

end Marco.Props
