import Verif.Props.C68_AccessSplit

/-!
# C69: separating the single indices of an equation keeps the scalar equations and their matching
-/

namespace Marco.Props
open Marco Spec Split

/-- The property in full. -/
def C69_full : Prop := ∀ (β : Type) (op : Inst β) (ranges : List Box) (w : Point → Point),
  IndicesOk op → StoredAs op ranges → MatchedBy op w →
  scalarEquations (scalarSplit op ranges) = scalarEquations [op] ∧
  ∀ q ∈ scalarSplit op ranges, MatchedBy q w

theorem setIndices_fields {β : Type} (op : Inst β) (s : Finset Point) (ws : List Access) :
    (setIndices op s ws).dims = op.dims ∧ (setIndices op s ws).body = op.body ∧
    (setIndices op s ws).accesses = op.accesses ∧ (setIndices op s ws).matched = op.matched ∧
    (setIndices op s ws).indices = s := by
  unfold setIndices
  by_cases h : s = op.indices
  · rw [if_pos h]
    exact ⟨rfl, rfl, rfl, rfl, h.symm⟩
  · rw [if_neg h]
    exact ⟨rfl, rfl, rfl, rfl, rfl⟩

/-- The sets of indices of the equations created. -/
def blocks (ranges : List Box) : List (Finset Point) :=
  (ranges.filter fun b => b.size == 1).map boxPoints ++
    if (ranges.filter fun b => !(b.size == 1)).isEmpty then []
    else [points (ranges.filter fun b => !(b.size == 1))]

theorem stored_ne {β : Type} {op : Inst β} {ranges : List Box}
    (hs : StoredAs op ranges) : op.indices = ∅ ↔ ranges = [] := by
  constructor
  · intro he
    by_contra hne
    obtain ⟨b, hb⟩ := List.exists_mem_of_ne_nil _ hne
    obtain ⟨p, hp⟩ := inB_exists (hs.valid b hb)
    have := (hs.cover p).2 ⟨b, hb, hp⟩
    rw [he] at this
    simp at this
  · rintro rfl
    ext p
    rw [hs.cover]
    simp

theorem disjoint_boxPoints {a b : Box} (h : Disj a b) : Disjoint (boxPoints a) (boxPoints b) := by
  rw [Finset.disjoint_left]
  intro p ha hb
  exact h p ⟨mem_boxPoints.1 ha, mem_boxPoints.1 hb⟩

theorem stored_disj {β : Type} {op : Inst β} {ranges : List Box} (hs : StoredAs op ranges)
    {b c : Box} (hb : b ∈ ranges) (hc : c ∈ ranges) (hbc : b ≠ c) : Disj b c :=
  haveI : Std.Symm Disj := ⟨fun _ _ => disj_symm⟩
  hs.disj.forall hb hc hbc

theorem blocks_spec {β : Type} {op : Inst β} {ranges : List Box}
    (hs : StoredAs op ranges) : (blocks ranges).Pairwise Disjoint ∧
      (∀ p, p ∈ op.indices ↔ ∃ s ∈ blocks ranges, p ∈ s) ∧ ∀ s ∈ blocks ranges, s.Nonempty := by
  refine ⟨?_, fun p => ?_, ?_⟩
  · unfold blocks
    rw [List.pairwise_append]
    refine ⟨?_, ?_, ?_⟩
    · rw [List.pairwise_map]
      exact (hs.disj.filter _).imp fun {a b} h => disjoint_boxPoints h
    · split_ifs <;> simp
    · intro s hs1 t ht
      split_ifs at ht with hr
      · simp at ht
      · rw [List.mem_singleton.1 ht]
        obtain ⟨b, hb, rfl⟩ := List.mem_map.1 hs1
        rw [Finset.disjoint_left]
        intro p hp hp'
        obtain ⟨c, hc, hpc⟩ := mem_points.1 hp'
        rw [mem_boxPoints] at hp
        rw [List.mem_filter] at hb hc
        have hbc : b ≠ c := by
          rintro rfl
          simp_all
        exact stored_disj hs hb.1 hc.1 hbc p ⟨hp, hpc⟩
  · rw [hs.cover]
    unfold blocks
    constructor
    · rintro ⟨b, hb, hp⟩
      by_cases h1 : b.size = 1
      · exact ⟨boxPoints b, List.mem_append_left _ (List.mem_map.2 ⟨b, List.mem_filter.2
          ⟨hb, by simp [h1]⟩, rfl⟩), mem_boxPoints.2 hp⟩
      · have hbf : b ∈ ranges.filter fun b => !(b.size == 1) := List.mem_filter.2 ⟨hb, by simp [h1]⟩
        refine ⟨points (ranges.filter fun b => !(b.size == 1)), List.mem_append_right _ ?_,
          mem_points.2 ⟨b, hbf, hp⟩⟩
        rw [if_neg (by rw [List.isEmpty_iff]; exact List.ne_nil_of_mem hbf)]
        simp
    · rintro ⟨s, hs1, hp⟩
      rcases List.mem_append.1 hs1 with h1 | h1
      · obtain ⟨b, hb, rfl⟩ := List.mem_map.1 h1
        exact ⟨b, (List.mem_filter.1 hb).1, mem_boxPoints.1 hp⟩
      · split_ifs at h1 with hr
        · simp at h1
        · rw [List.mem_singleton.1 h1] at hp
          obtain ⟨c, hc, hpc⟩ := mem_points.1 hp
          exact ⟨c, (List.mem_filter.1 hc).1, hpc⟩
  · intro s hs1
    unfold blocks at hs1
    rcases List.mem_append.1 hs1 with h1 | h1
    · obtain ⟨b, hb, rfl⟩ := List.mem_map.1 h1
      obtain ⟨p, hp⟩ := inB_exists (hs.valid b (List.mem_filter.1 hb).1)
      exact ⟨p, mem_boxPoints.2 hp⟩
    · split_ifs at h1 with hr
      · simp at h1
      · rw [List.isEmpty_iff] at hr
        obtain ⟨c, hc⟩ := List.exists_mem_of_ne_nil _ hr
        obtain ⟨p, hp⟩ := inB_exists (hs.valid c (List.mem_filter.1 hc).1)
        rw [List.mem_singleton.1 h1]
        exact ⟨p, mem_points.2 ⟨c, hc, hp⟩⟩

/-- The equations created are those of the blocks, even when nothing is done. -/
theorem scalarSplit_eq {β : Type} {op : Inst β} {ranges : List Box}
    (hs : StoredAs op ranges) (hne : op.indices ≠ ∅) :
    scalarSplit op ranges = (blocks ranges).map fun s => setIndices op s (writeAccesses op) := by
  have hr : ranges ≠ [] := fun hr => hne ((stored_ne hs).2 hr)
  unfold scalarSplit
  simp only
  rw [if_neg (by rw [List.isEmpty_iff]; exact hr)]
  by_cases h1 : (ranges.filter fun b => b.size == 1).isEmpty = true
  · rw [if_pos h1]
    rw [List.isEmpty_iff] at h1
    by_cases h2 : (ranges.filter fun b => !(b.size == 1)).isEmpty = true
    · exfalso
      rw [List.isEmpty_iff] at h2
      obtain ⟨b, hb⟩ := List.exists_mem_of_ne_nil _ hr
      by_cases hb1 : b.size = 1
      · have : b ∈ ranges.filter fun b => b.size == 1 := List.mem_filter.2 ⟨hb, by simp [hb1]⟩
        rw [h1] at this; simp at this
      · have : b ∈ ranges.filter fun b => !(b.size == 1) := List.mem_filter.2 ⟨hb, by simp [hb1]⟩
        rw [h2] at this; simp at this
    · have hb : blocks ranges = [points (ranges.filter fun b => !(b.size == 1))] := by
        simp only [blocks, h1, List.map_nil, List.nil_append, if_neg h2]
      have hc := (blocks_spec hs).2.1
      rw [hb] at hc ⊢
      have he : points (ranges.filter fun b => !(b.size == 1)) = op.indices := by
        ext p; rw [hc]; simp
      simp [setIndices, he]
  · rw [if_neg h1]
    by_cases h2 : (ranges.filter fun b => !(b.size == 1)).isEmpty = true
    · simp only [blocks, if_pos h2, List.append_nil, List.map_map]; rfl
    · simp only [blocks, if_neg h2, List.map_append, List.map_map, List.map_cons, List.map_nil]; rfl

/-- The equations created stand for the scalar equations of the original one. -/
theorem C69_equations_partial {β : Type} (op : Inst β) (ranges : List Box) (h : IndicesOk op)
    (hs : StoredAs op ranges) :
    scalarEquations (scalarSplit op ranges) = scalarEquations [op] ∧
    ∀ q ∈ scalarSplit op ranges, IndicesOk q ∧ q.dims = op.dims ∧ q.body = op.body ∧
      q.accesses = op.accesses ∧ q.matched = op.matched := by
  by_cases hne : op.indices = ∅
  · have hr := (stored_ne hs).1 hne
    subst hr
    exact ⟨rfl, by simpa [scalarSplit] using h⟩
  · have hd : op.dims ≠ 0 := fun hd => hne (h.none hd)
    obtain ⟨h1, h2, h3⟩ := blocks_spec hs
    rw [scalarSplit_eq hs hne]
    refine ⟨?_, ?_⟩
    · have hsum := sum_val _ _ h1 h2
      simp only [scalarEquations, List.map_map, List.map_cons, List.map_nil, List.sum_cons,
        List.sum_nil, add_zero, eqPoints, if_neg hd]
      rw [← hsum]
      generalize blocks ranges = l
      induction l with
      | nil => simp
      | cons s l ih =>
        simp only [List.map_cons, List.sum_cons, Multiset.map_add, ih]
        obtain ⟨a, b, -, -, c⟩ := setIndices_fields op s (writeAccesses op)
        simp [a, b, c, hd]
    · intro q hq
      obtain ⟨s, hs1, rfl⟩ := List.mem_map.1 hq
      obtain ⟨a, b, c, d, e⟩ := setIndices_fields op s (writeAccesses op)
      refine ⟨⟨fun hd' => absurd (a ▸ hd') hd, fun _ => ?_, fun p hp => ?_⟩, a, b, c, d⟩
      · rw [e]; exact (h3 s hs1).ne_empty
      · rw [e] at hp
        rw [a]
        exact h.rank p ((h2 p).2 ⟨s, hs1, hp⟩)

theorem mem_writeAccesses {β : Type} {op : Inst β} (hd : op.dims ≠ 0) {a : Access} :
    a ∈ writeAccesses op ↔ a.var = op.matched ∧ Inside op a.fn := by
  unfold writeAccesses Inside
  have : (op.dims == 0) = false := by simpa using hd
  simp only [List.mem_filter, Bool.and_eq_true, decide_eq_true_eq, this, image,
    Bool.false_eq_true, if_false, Finset.image_subset_iff]
  obtain ⟨v, f⟩ := a
  constructor
  · rintro ⟨h1, rfl, h3⟩; exact ⟨rfl, h1, h3⟩
  · rintro ⟨rfl, h1, h3⟩; exact ⟨h1, rfl, h3⟩

theorem inside_w {β : Type} {op : Inst β} {w : Point → Point} (h : MatchedBy op w)
    (hd : op.dims ≠ 0) : Inside op w :=
  ⟨h.access, fun p hp => by
    rw [h.elements, eqPoints, if_neg hd]
    exact Finset.mem_image_of_mem _ hp⟩

/-- The matched elements of an equation created: all that the write accesses reach. -/
theorem setIndices_matched {β : Type} {op : Inst β} {w : Point → Point} (h : MatchedBy op w)
    (hd : op.dims ≠ 0) (s : Finset Point) (u : Point) :
    u ∈ (setIndices op s (writeAccesses op)).matchedIndices ↔
      ∃ f, Inside op f ∧ ∃ p ∈ s, f p = u := by
  have hd' : (op.dims == 0) = false := by simpa using hd
  unfold setIndices
  by_cases hs : s = op.indices
  · rw [if_pos hs]
    constructor
    · intro hu
      rw [h.elements, eqPoints, if_neg hd] at hu
      obtain ⟨p, hp, rfl⟩ := Finset.mem_image.1 hu
      exact ⟨w, inside_w h hd, p, hs ▸ hp, rfl⟩
    · rintro ⟨f, hf, p, hp, rfl⟩
      exact hf.2 p (hs ▸ hp)
  · simp only [if_neg hs, ite_self]
    rw [mem_union_foldl]
    simp only [Finset.notMem_empty, false_or, image, hd', Bool.false_eq_true, if_false,
      Finset.mem_image]
    constructor
    · rintro ⟨a, ha, p, hp, rfl⟩
      exact ⟨a.fn, ((mem_writeAccesses hd).1 ha).2, p, hp, rfl⟩
    · rintro ⟨f, hf, p, hp, rfl⟩
      exact ⟨⟨op.matched, f⟩, (mem_writeAccesses hd).2 ⟨rfl, hf⟩, p, hp, rfl⟩

theorem setIndices_matchedBy {β : Type} {op : Inst β} {w : Point → Point} (h : MatchedBy op w)
    (hd : op.dims ≠ 0) {s : Finset Point} (hs : s ⊆ op.indices) :
    MatchedBy (setIndices op s (writeAccesses op)) w ↔
      ∀ f, Inside op f → ∀ p ∈ s, ∃ p' ∈ s, w p' = f p := by
  obtain ⟨a, b, c, d, e⟩ := setIndices_fields op s (writeAccesses op)
  constructor
  · intro hm f hf p hp
    have h1 := (setIndices_matched h hd s (f p)).2 ⟨f, hf, p, hp, rfl⟩
    rw [hm.elements, eqPoints, a, if_neg hd, e] at h1
    exact Finset.mem_image.1 h1
  · intro hall
    refine ⟨?_, ?_, ?_⟩
    · rw [c, d]; exact h.access
    · have := h.inj
      rw [eqPoints, if_neg hd] at this
      rw [eqPoints, a, if_neg hd, e]
      exact this.mono (by exact_mod_cast hs)
    · rw [eqPoints, a, if_neg hd, e]
      ext u
      rw [setIndices_matched h hd, Finset.mem_image]
      constructor
      · rintro ⟨f, hf, p, hp, rfl⟩
        exact hall f hf p hp
      · rintro ⟨p, hp, rfl⟩
        exact ⟨w, inside_w h hd, p, hp, rfl⟩

theorem inMany_iff {ranges : List Box} {p : Point} : InMany ranges p ↔ p ∈ points (ranges.filter fun b => !(b.size == 1)) := by
  rw [mem_points]
  constructor
  · rintro ⟨b, hb, hp, x, hx, hne⟩
    refine ⟨b, List.mem_filter.2 ⟨hb, ?_⟩, hp⟩
    simp only [Bool.not_eq_true', beq_eq_false_iff_ne, ne_eq]
    intro h1
    obtain ⟨y, hy⟩ := size_one_iff.1 h1
    exact hne (((hy x).1 hx).trans ((hy p).1 hp).symm)
  · rintro ⟨b, hb, hp⟩
    obtain ⟨hb, h1⟩ := List.mem_filter.1 hb
    refine ⟨b, hb, hp, ?_⟩
    by_contra hcon
    push Not at hcon
    have : b.size = 1 := size_one_iff.2 ⟨p, fun q => ⟨fun h => hcon q h, fun h => h ▸ hp⟩⟩
    simp [this] at h1

/-- The matching is kept exactly if every access all of whose elements are matched accesses, at
each index, the element matched with an index that stays in the same equation. -/
theorem C69_matching_partial {β : Type} (op : Inst β) (ranges : List Box) (w : Point → Point)
    (h : IndicesOk op) (hs : StoredAs op ranges) (hm : MatchedBy op w) (hd : op.dims ≠ 0) :
    (∀ q ∈ scalarSplit op ranges, MatchedBy q w) ↔
      ∀ f, Inside op f → ∀ p ∈ op.indices,
        ∃ p' ∈ op.indices, Together ranges p p' ∧ w p' = f p := by
  have hne := h.some hd
  obtain ⟨h1, h2, h3⟩ := blocks_spec hs
  have hsub : ∀ s ∈ blocks ranges, s ⊆ op.indices := fun s hs1 p hp => (h2 p).2 ⟨s, hs1, hp⟩
  rw [scalarSplit_eq hs hne]
  have key : ∀ s ∈ blocks ranges, ∀ p ∈ s, ∀ p' ∈ op.indices,
      (p' ∈ s ↔ Together ranges p p') := by
    intro s hs1 p hp p' hp'
    have hs2 := hs1
    unfold blocks at hs1
    rcases List.mem_append.1 hs1 with h4 | h4
    · obtain ⟨b, hb, rfl⟩ := List.mem_map.1 h4
      obtain ⟨hb, hb1⟩ := List.mem_filter.1 hb
      have hb1 : b.size = 1 := by simpa using hb1
      obtain ⟨x, hx⟩ := size_one_iff.1 hb1
      have hpx := (hx p).1 (mem_boxPoints.1 hp)
      rw [mem_boxPoints, hx]
      constructor
      · rintro rfl; exact Or.inl hpx
      · rintro (rfl | ⟨h5, -⟩)
        · exact hpx
        · exfalso
          rw [inMany_iff] at h5
          obtain ⟨c, hc, hpc⟩ := mem_points.1 h5
          obtain ⟨hc, hc1⟩ := List.mem_filter.1 hc
          have hbc : b ≠ c := by
            rintro rfl
            simp [hb1] at hc1
          exact stored_disj hs hb hc hbc p ⟨mem_boxPoints.1 hp, hpc⟩
    · split_ifs at h4 with h5
      · simp at h4
      · rw [List.mem_singleton.1 h4] at hp ⊢
        rw [← inMany_iff] at hp ⊢
        constructor
        · intro h6; exact Or.inr ⟨hp, h6⟩
        · rintro (rfl | h6)
          · exact hp
          · exact h6.2
  constructor
  · intro hall f hf p hp
    obtain ⟨s, hs1, hps⟩ := (h2 p).1 hp
    have h4 := (setIndices_matchedBy hm hd (hsub s hs1)).1
      (hall _ (List.mem_map.2 ⟨s, hs1, rfl⟩)) f hf p hps
    obtain ⟨p', hp', h5⟩ := h4
    exact ⟨p', hsub s hs1 hp', (key s hs1 p hps p' (hsub s hs1 hp')).1 hp', h5⟩
  · intro hall q hq
    obtain ⟨s, hs1, rfl⟩ := List.mem_map.1 hq
    rw [setIndices_matchedBy hm hd (hsub s hs1)]
    intro f hf p hp
    obtain ⟨p', hp', h4, h5⟩ := hall f hf p (hsub s hs1 hp)
    exact ⟨p', (key s hs1 p hp p' hp').2 h4, h5⟩

/-! ### Witnesses -/

/-- `x[i] = f(x[11 - i])` for `i` in {3}, {5, 6} and {8}, matched with `x[i]`. -/
def crossed : Inst Unit where
  dims := 1
  body := fun _ => ()
  accesses := [⟨0, fun p => p⟩, ⟨0, fun p => p.map (11 - ·)⟩]
  indices := {[3], [5], [6], [8]}
  matched := 0
  matchedIndices := {[3], [5], [6], [8]}

def crossedRanges : List Box := [[⟨3, 4⟩], [⟨5, 7⟩], [⟨8, 9⟩]]

theorem crossed_ok : IndicesOk crossed := ⟨by decide, by decide +kernel, by decide +kernel⟩

theorem crossed_stored : StoredAs crossed crossedRanges where
  rank := by decide
  valid := by decide
  disj := by
    simp only [crossedRanges, List.pairwise_cons, List.mem_cons, List.not_mem_nil, or_false,
      forall_eq_or_imp, forall_eq, false_imp_iff, implies_true, List.Pairwise.nil, and_true]
    refine ⟨⟨?_, ?_⟩, ?_⟩ <;> rintro p ⟨h1, h2⟩ <;> cases h1 with
      | cons h1 _ => cases h2 with
        | cons h2 _ => obtain ⟨a, b⟩ := h1; obtain ⟨c, d⟩ := h2; simp at a b c d; omega
  cover := by
    intro p
    have : crossed.indices = points crossedRanges := by decide +kernel
    rw [this, mem_points]

theorem crossed_matched : MatchedBy crossed (fun p => p) :=
  ⟨.head _, fun _ _ _ _ h => h, by decide +kernel⟩

/-- The equations for 3 and for 8 are both matched with `x[3]` and `x[8]`. -/
theorem C69_matching_false : ¬ C69_full := by
  intro h
  have h1 := (h Unit crossed crossedRanges (fun p => p) crossed_ok crossed_stored
    crossed_matched).2
  have h2 : ∀ q ∈ scalarSplit crossed crossedRanges, q.matchedIndices = q.indices := by
    intro q hq
    have h3 := (h1 q hq).elements
    have h4 : q.dims = 1 :=
      ((C69_equations_partial crossed crossedRanges crossed_ok crossed_stored).2 q hq).2.1
    rw [eqPoints, h4] at h3
    simpa using h3
  have h5 : ¬ ∀ q ∈ scalarSplit crossed crossedRanges, q.matchedIndices = q.indices := by
    decide +kernel
  exact h5 h2

example : (scalarSplit crossed crossedRanges).map (fun q => (q.indices, q.matchedIndices)) =
    [({[3]}, {[3], [8]}), ({[8]}, {[3], [8]}), ({[5], [6]}, {[5], [6]})] := by decide +kernel

/-- `x[i] = 0` for the same indices: it becomes three equations, each with its elements. -/
def plainSplit : Inst Unit := { crossed with accesses := [⟨0, fun p => p⟩, ⟨1, fun p => p⟩] }

example : ∀ q ∈ scalarSplit plainSplit crossedRanges, MatchedBy q (fun p => p) := by
  have hok : IndicesOk plainSplit := ⟨crossed_ok.none, crossed_ok.some, crossed_ok.rank⟩
  have hst : StoredAs plainSplit crossedRanges :=
    ⟨crossed_stored.rank, crossed_stored.valid, crossed_stored.disj, crossed_stored.cover⟩
  have hm : MatchedBy plainSplit (fun p => p) := ⟨.head _, fun _ _ _ _ h => h, by decide +kernel⟩
  rw [C69_matching_partial plainSplit _ _ hok hst hm (by decide)]
  rintro f ⟨hf, -⟩ p hp
  simp only [plainSplit, crossed, List.mem_cons, Access.mk.injEq, List.not_mem_nil, or_false] at hf
  rcases hf with ⟨-, rfl⟩ | ⟨h, -⟩
  · exact ⟨p, hp, Or.inl rfl, rfl⟩
  · simp at h

example : (scalarSplit plainSplit crossedRanges).length = 3 := by decide +kernel

end Marco.Props
