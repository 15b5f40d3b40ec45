import Verif.Props.C69_ScalarRanges

/-!
# C70: eliminating the inductions with one value keeps the scalar equations and their matching
-/

namespace Marco.Props
open Marco Spec Split

/-- The property in full. The matched variable may be accessed through other functions, as the
equations created have other induction variables. -/
def C70_full : Prop := ∀ (β : Type) (op : Inst β) (ranges : List Box) (w : Point → Point),
  IndicesOk op → StoredAs op ranges → MatchedBy op w →
  ∃ ws : Inst β → Point → Point, (∀ q ∈ eliminateSingle op ranges, MatchedBy q (ws q)) ∧
    matchedEquations ws (eliminateSingle op ranges) = matchedEquations (fun _ => w) [op]

/-- The induction variables that remain. -/
def restOf (r : Box) : Box := r.filter fun x => !single x

theorem restOf_length (r : Box) : r.countP single + (restOf r).length = r.length := by
  rw [restOf, ← List.countP_eq_length_filter, List.length_eq_countP_add_countP single]
  simp

theorem eliminate_fields {β : Type} {op : Inst β} {r : Box} (hr : r.length = op.dims) :
    (eliminate op r).dims = (restOf r).length ∧
    (eliminate op r).body = (fun q => op.body (expand r q)) ∧
    (eliminate op r).accesses = (op.accesses.map fun a => ⟨a.var, fun q => a.fn (expand r q)⟩) ∧
    (eliminate op r).matched = op.matched ∧
    (eliminate op r).indices = if (restOf r).isEmpty then ∅ else boxPoints (restOf r) := by
  obtain ⟨a, b, c, d, e⟩ := setIndices_fields (reduced op r)
    (if (restOf r).isEmpty then ∅ else boxPoints (restOf r)) []
  unfold eliminate
  simp only
  refine ⟨?_, b, c, d, e⟩
  rw [show (List.filter (fun x => !single x) r) = restOf r from rfl, a]
  have := restOf_length r
  simp only [reduced]
  omega

theorem eliminate_points {β : Type} {op : Inst β} {r : Box} (hr : r.length = op.dims) :
    eqPoints (eliminate op r) = boxPoints (restOf r) := by
  obtain ⟨a, -, -, -, e⟩ := eliminate_fields hr
  rw [eqPoints, a, e]
  by_cases h : restOf r = []
  · simp [h, boxPoints]
  · simp [h]

theorem mem_foldl_sdiff : ∀ (l : List Box) (acc : Finset Point) (p : Point),
    p ∈ l.foldl (fun acc r => acc \ boxPoints r) acc ↔ p ∈ acc ∧ ∀ r ∈ l, ¬ InB p r
  | [], acc, p => by simp
  | r :: l, acc, p => by
    rw [List.foldl_cons, mem_foldl_sdiff l]
    simp [mem_boxPoints, and_assoc]

/-- The indices that are not affected. -/
def remainingOf {β : Type} (op : Inst β) (ranges : List Box) : Finset Point :=
  (ranges.filter fun r => r.any single).foldl (fun acc r => acc \ boxPoints r) op.indices

theorem remaining_cover {β : Type} {op : Inst β} {ranges : List Box} (hs : StoredAs op ranges) :
    ((ranges.filter fun r => r.any single).map boxPoints ++ [remainingOf op ranges]).Pairwise
      Disjoint ∧ ∀ p, p ∈ op.indices ↔
        ∃ s ∈ (ranges.filter fun r => r.any single).map boxPoints ++ [remainingOf op ranges],
          p ∈ s := by
  refine ⟨?_, fun p => ?_⟩
  · rw [List.pairwise_append]
    refine ⟨?_, by simp, ?_⟩
    · rw [List.pairwise_map]
      exact (hs.disj.filter _).imp fun {a b} h => disjoint_boxPoints h
    · intro s hs1 t ht
      rw [List.mem_singleton.1 ht]
      obtain ⟨b, hb, rfl⟩ := List.mem_map.1 hs1
      rw [Finset.disjoint_left]
      intro p hp hp'
      exact ((mem_foldl_sdiff _ _ _).1 hp').2 b hb (mem_boxPoints.1 hp)
  · constructor
    · intro hp
      by_cases h : ∃ r ∈ ranges.filter (fun r => r.any single), InB p r
      · obtain ⟨r, hr, hpr⟩ := h
        exact ⟨_, List.mem_append_left _ (List.mem_map.2 ⟨r, hr, rfl⟩), mem_boxPoints.2 hpr⟩
      · push Not at h
        exact ⟨_, List.mem_append_right _ (List.mem_singleton.2 rfl),
          (mem_foldl_sdiff _ _ _).2 ⟨hp, h⟩⟩
    · rintro ⟨s, hs1, hp⟩
      rcases List.mem_append.1 hs1 with h | h
      · obtain ⟨r, hr, rfl⟩ := List.mem_map.1 h
        exact (hs.cover p).2 ⟨r, (List.mem_filter.1 hr).1, mem_boxPoints.1 hp⟩
      · rw [List.mem_singleton.1 h] at hp
        exact ((mem_foldl_sdiff _ _ _).1 hp).1

/-- The equations created stand for the scalar equations of the original one. -/
theorem C70_equations_partial {β : Type} (op : Inst β) (ranges : List Box) (h : IndicesOk op)
    (hs : StoredAs op ranges) :
    scalarEquations (eliminateSingle op ranges) = scalarEquations [op] ∧
    ∀ q ∈ eliminateSingle op ranges, IndicesOk q := by
  by_cases hne : op.indices = ∅
  · have hr := (stored_ne hs).1 hne
    subst hr
    exact ⟨rfl, by simpa [eliminateSingle] using h⟩
  have hd : op.dims ≠ 0 := fun hd => hne (h.none hd)
  have hr : ranges ≠ [] := fun hr => hne ((stored_ne hs).2 hr)
  have hunf : eliminateSingle op ranges =
      ((ranges.filter fun r => r.any single).map (eliminate op)) ++
        if remainingOf op ranges = ∅ then [] else [setIndices op (remainingOf op ranges) []] := by
    unfold eliminateSingle
    rw [if_neg (by rw [List.isEmpty_iff]; exact hr)]
    rfl
  obtain ⟨h1, h2⟩ := remaining_cover hs
  rw [hunf]
  refine ⟨?_, ?_⟩
  · have hsum := sum_val _ _ h1 h2
    simp only [scalarEquations, List.map_cons, List.map_nil, List.sum_cons, List.sum_nil, add_zero,
      List.map_append, List.sum_append]
    rw [show (eqPoints op) = op.indices by rw [eqPoints, if_neg hd], ← hsum]
    simp only [List.map_append, List.sum_append, Multiset.map_add, List.map_cons, List.map_nil,
      List.sum_cons, List.sum_nil, add_zero]
    congr 1
    · have hl : ∀ r ∈ ranges.filter fun r => r.any single, r.length = op.dims :=
        fun r hr => hs.rank r (List.mem_filter.1 hr).1
      generalize (ranges.filter fun r => r.any single) = l at hl ⊢
      induction l with
      | nil => simp
      | cons r l ih =>
        have ih := ih fun r hr => hl r (by simp [hr])
        simp only [List.map_cons, List.sum_cons, Multiset.map_add]
        rw [ih, eliminate_points (hl r (by simp)), (eliminate_fields (hl r (by simp))).2.1]
        congr 1
        rw [← expand_val r, Multiset.map_map]
        rfl
    · by_cases hrem : remainingOf op ranges = ∅
      · simp [hrem]
      · obtain ⟨a, b, -, -, c⟩ := setIndices_fields op (remainingOf op ranges) []
        simp only [if_neg hrem, List.map_cons, List.map_nil, List.sum_cons, List.sum_nil, add_zero,
          eqPoints, a, b, c, if_neg hd]
  · intro q hq
    rcases List.mem_append.1 hq with h3 | h3
    · obtain ⟨r, hr, rfl⟩ := List.mem_map.1 h3
      have hrm := (List.mem_filter.1 hr).1
      obtain ⟨a, -, -, -, e⟩ := eliminate_fields (op := op) (hs.rank r hrm)
      refine ⟨fun h0 => ?_, fun h0 => ?_, fun p hp => ?_⟩
      · rw [a, List.length_eq_zero_iff] at h0
        rw [e, h0]; simp
      · rw [a, ne_eq, List.length_eq_zero_iff] at h0
        rw [e, if_neg (by rwa [List.isEmpty_iff])]
        obtain ⟨p, hp⟩ := inB_exists (b := restOf r)
          fun x hx => hs.valid r hrm x (List.mem_filter.1 hx).1
        exact Finset.ne_empty_of_mem (mem_boxPoints.2 hp)
      · rw [a]
        rw [e] at hp
        split_ifs at hp with h0
        · simp at hp
        · exact inB_length (mem_boxPoints.1 hp)
    · split_ifs at h3 with hrem
      · simp at h3
      · rw [List.mem_singleton.1 h3]
        obtain ⟨a, -, -, -, c⟩ := setIndices_fields op (remainingOf op ranges) []
        refine ⟨fun h0 => absurd (a ▸ h0) hd, fun _ => by rwa [c], fun p hp => ?_⟩
        rw [c] at hp
        rw [a]
        exact h.rank p ((mem_foldl_sdiff _ _ _).1 hp).1

/-! ### The matching -/

theorem expand_singles : ∀ {c : Box} (q : Point), (∀ x ∈ c, x.e - x.b = 1) →
    expand c q = c.map Range.b
  | [], _, _ => rfl
  | x :: c, q, h => by
    have ih := expand_singles (c := c) q fun y hy => h y (by simp [hy])
    simp only [expand, if_pos (single_iff.2 (h x (by simp))), List.map_cons, ih]

theorem inB_singles : ∀ {c : Box} {e : Point}, (∀ x ∈ c, x.e - x.b = 1) → InB e c →
    e = c.map Range.b
  | [], _, _, h => by cases h; rfl
  | x :: c, _, hc, h => by
    cases h with
    | cons h1 h2 =>
      rw [List.map_cons, inB_singles (fun y hy => hc y (by simp [hy])) h2]
      have := h1.1; have := h1.2; have := hc x (by simp)
      congr 1; omega

theorem expand_last : ∀ {a c : Box} {e : Point}, (∀ x ∈ a, x.e - x.b ≠ 1) →
    (∀ x ∈ c, x.e - x.b = 1) → InB e (a ++ c) → expand (a ++ c) e = e
  | [], c, e, _, hc, h => by
    rw [List.nil_append] at h ⊢
    rw [expand_singles e hc, inB_singles hc h]
  | x :: a, c, _, ha, hc, h => by
    cases h with
    | cons h1 h2 =>
      have hx : ¬ single x = true := fun hx => ha x (by simp) (single_iff.1 hx)
      simp only [List.cons_append, expand, if_neg hx]
      rw [expand_last (fun y hy => ha y (by simp [hy])) hc h2]

/-- With one stored box in which the inductions to eliminate are the last ones, and accesses that
agree, the matching is kept. -/
theorem C70_matching_partial {β : Type} (op : Inst β) (r : Box) (w : Point → Point)
    (h : IndicesOk op) (hs : StoredAs op [r]) (hm : MatchedBy op w) (hd : op.dims ≠ 0)
    (hlast : SinglesLast r) (hagree : ∀ f, Inside op f → ∀ p ∈ op.indices, f p = w p) :
    ∃ ws : Inst β → Point → Point, (∀ q ∈ eliminateSingle op [r], MatchedBy q (ws q)) ∧
      matchedEquations ws (eliminateSingle op [r]) = matchedEquations (fun _ => w) [op] := by
  have hmem : ∀ p, p ∈ op.indices ↔ InB p r := fun p => by simpa using hs.cover p
  by_cases hany : r.any single = true
  · -- the equation is replaced
    have hrl : r.length = op.dims := hs.rank r (by simp)
    have hrem : op.indices \ boxPoints r = ∅ := by
      rw [Finset.sdiff_eq_empty_iff_subset]
      intro p hp
      exact mem_boxPoints.2 ((hmem p).1 hp)
    have hres : eliminateSingle op [r] = [eliminate op r] := by
      simp [eliminateSingle, hany, hrem]
    obtain ⟨f1, f2, f3, f4, f5⟩ := eliminate_fields (op := op) hrl
    have hpts := eliminate_points (op := op) hrl
    have hexp : ∀ e ∈ op.indices, expand r e = e := by
      obtain ⟨a, c, rfl, ha, hc⟩ := hlast
      intro e he
      exact expand_last ha hc ((hmem e).1 he)
    have hwpts : op.matchedIndices = op.indices.image w := by
      have := hm.elements
      rwa [eqPoints, if_neg hd] at this
    have hwinj : Set.InjOn w op.indices := by
      have := hm.inj
      rwa [eqPoints, if_neg hd] at this
    have hlt : (restOf r).length < op.dims := by
      have h1 := restOf_length r
      obtain ⟨x, hx, hx1⟩ := List.any_eq_true.1 hany
      have : 0 < r.countP single := List.countP_pos_iff.2 ⟨x, hx, hx1⟩
      omega
    -- the write accesses found in the new template
    have hmatched : (eliminate op r).matchedIndices = op.indices.image w := by
      have hnew : (if (restOf r).isEmpty then ∅ else boxPoints (restOf r)) ≠ op.indices := by
        intro he
        obtain ⟨p, hp⟩ := Finset.nonempty_iff_ne_empty.2 (h.some hd)
        have hl := h.rank p hp
        rw [← he] at hp
        split_ifs at hp with h0
        · simp at hp
        · have := inB_length (mem_boxPoints.1 hp)
          omega
      have hdims : (reduced op r).dims = (restOf r).length := by
        have := restOf_length r
        simp only [reduced]
        omega
      have himg : ∀ f : Point → Point, image (fun q => f (expand r q)) ((reduced op r).dims == 0)
          (if (restOf r).isEmpty then ∅ else boxPoints (restOf r)) = op.indices.image f := by
        intro f
        ext u
        rw [hdims]
        unfold image
        by_cases h0 : restOf r = []
        · simp only [h0, List.length_nil, beq_self_eq_true, if_true, Finset.mem_singleton,
            Finset.mem_image]
          have hx : InB (expand r []) r := inB_expand.2 ⟨[], by
            rw [show (r.filter fun x => !single x) = [] from h0]; exact .nil, rfl⟩
          constructor
          · rintro rfl
            exact ⟨_, (hmem _).2 hx, rfl⟩
          · rintro ⟨p, hp, rfl⟩
            obtain ⟨q, hq, rfl⟩ := inB_expand.1 ((hmem p).1 hp)
            rw [show (r.filter fun x => !single x) = [] from h0] at hq
            cases hq
            rfl
        · have h0' : ((restOf r).length == 0) = false := by simpa using h0
          simp only [h0', Bool.false_eq_true, if_false, List.isEmpty_iff, h0, Finset.mem_image,
            mem_boxPoints]
          constructor
          · rintro ⟨q, hq, rfl⟩
            exact ⟨_, (hmem _).2 (inB_expand.2 ⟨q, hq, rfl⟩), rfl⟩
          · rintro ⟨p, hp, rfl⟩
            obtain ⟨q, hq, rfl⟩ := inB_expand.1 ((hmem p).1 hp)
            exact ⟨q, hq, rfl⟩
      have hold : ∀ f : Point → Point, image (fun q => f (expand r q)) ((reduced op r).dims == 0)
          op.indices = op.indices.image f := by
        intro f
        by_cases h0 : restOf r = []
        · rw [← himg f]
          simp [image, hdims, h0]
        · have h0' : ((reduced op r).dims == 0) = false := by rw [hdims]; simpa using h0
          ext u
          simp only [image, h0', Bool.false_eq_true, if_false, Finset.mem_image]
          constructor
          · rintro ⟨p, hp, rfl⟩; exact ⟨p, hp, by rw [hexp p hp]⟩
          · rintro ⟨p, hp, rfl⟩; exact ⟨p, hp, by rw [hexp p hp]⟩
      have hws : ∀ a, a ∈ writeAccesses (reduced op r) ↔
          ∃ f, Inside op f ∧ a = ⟨op.matched, fun q => f (expand r q)⟩ := by
        intro a
        unfold writeAccesses
        simp only [List.mem_filter, Bool.and_eq_true, decide_eq_true_eq]
        constructor
        · rintro ⟨h1, h2, h3⟩
          obtain ⟨⟨v, f⟩, hf, rfl⟩ := List.mem_map.1 h1
          change v = op.matched at h2
          subst h2
          change image (fun q => f (expand r q)) _ op.indices ⊆ op.matchedIndices at h3
          rw [hold, Finset.image_subset_iff] at h3
          exact ⟨f, ⟨hf, h3⟩, rfl⟩
        · rintro ⟨f, ⟨hf, hf2⟩, rfl⟩
          refine ⟨List.mem_map.2 ⟨_, hf, rfl⟩, rfl, ?_⟩
          change image (fun q => f (expand r q)) _ op.indices ⊆ op.matchedIndices
          rw [hold, Finset.image_subset_iff]
          exact hf2
      have he : (eliminate op r).matchedIndices = (writeAccesses (reduced op r)).foldl
          (fun acc a => acc ∪ image a.fn ((reduced op r).dims == 0)
            (if (restOf r).isEmpty then ∅ else boxPoints (restOf r))) ∅ := by
        unfold eliminate setIndices
        simp only
        rw [if_neg (by exact hnew)]
        rfl
      rw [he]
      ext u
      rw [mem_union_foldl]
      constructor
      · rintro (h1 | ⟨a, ha, hu⟩)
        · simp at h1
        · obtain ⟨f, hf, rfl⟩ := (hws a).1 ha
          rw [himg] at hu
          obtain ⟨p, hp, rfl⟩ := Finset.mem_image.1 hu
          rw [hagree f hf p hp]
          exact Finset.mem_image_of_mem _ hp
      · intro hu
        exact Or.inr ⟨_, (hws _).2 ⟨w, inside_w hm hd, rfl⟩, by rw [himg]; exact hu⟩
    have hwe : (boxPoints (restOf r)).image (fun q => w (expand r q)) = op.indices.image w := by
      ext u
      simp only [Finset.mem_image, mem_boxPoints, hmem]
      constructor
      · rintro ⟨q, hq, rfl⟩; exact ⟨_, inB_expand.2 ⟨q, hq, rfl⟩, rfl⟩
      · rintro ⟨p, hp, rfl⟩
        obtain ⟨q, hq, rfl⟩ := inB_expand.1 hp
        exact ⟨q, hq, rfl⟩
    refine ⟨fun _ q => w (expand r q), ?_, ?_⟩
    · intro q hq
      rw [hres, List.mem_singleton] at hq
      subst hq
      refine ⟨?_, ?_, ?_⟩
      · rw [f3, f4]
        exact List.mem_map.2 ⟨⟨op.matched, w⟩, hm.access, rfl⟩
      · rw [hpts]
        intro x hx y hy hxy
        have hx := mem_boxPoints.1 hx
        have hy := mem_boxPoints.1 hy
        exact expand_inj (inB_length hx) (inB_length hy)
          (hwinj ((hmem _).2 (inB_expand.2 ⟨x, hx, rfl⟩)) ((hmem _).2 (inB_expand.2 ⟨y, hy, rfl⟩)) hxy)
      · rw [hmatched, hpts, hwe]
    · rw [hres]
      simp only [matchedEquations, List.map_cons, List.map_nil, List.sum_cons, List.sum_nil,
        add_zero]
      have hE : op.indices = boxPoints r := by
        ext p; rw [hmem, mem_boxPoints]
      rw [hpts, f2, show eqPoints op = op.indices by rw [eqPoints, if_neg hd], hE, ← expand_val r,
        Multiset.map_map]
      rfl
  · have hres : eliminateSingle op [r] = [op] := by
      have hne := h.some hd
      simp only [eliminateSingle, List.isEmpty_cons, Bool.false_eq_true, if_false,
        List.filter_cons, if_neg hany, List.filter_nil, List.foldl_nil, if_neg hne, List.map_nil,
        List.nil_append]
      simp [setIndices]
    rw [hres]
    exact ⟨fun _ => w, by simpa using hm, rfl⟩

/-! ### Witnesses -/

/-- `x[i, j] = 0` for `i` in 7..7 and `j` in 1..3, matched with `x[i, j]`. -/
def firstSingle : Inst Unit where
  dims := 2
  body := fun _ => ()
  accesses := [⟨0, fun p => [p.getD 0 0, p.getD 1 0]⟩]
  indices := {[7, 1], [7, 2], [7, 3]}
  matched := 0
  matchedIndices := {[7, 1], [7, 2], [7, 3]}

theorem firstSingle_ok : IndicesOk firstSingle :=
  ⟨by decide, by decide +kernel, by decide +kernel⟩

theorem storedAs_single {β : Type} {op : Inst β} {r : Box} (h1 : r.length = op.dims)
    (h2 : ∀ x ∈ r, x.b < x.e) (h3 : op.indices = boxPoints r) : StoredAs op [r] :=
  ⟨by simpa using h1, by simpa using h2, by simp, fun p => by rw [h3, mem_boxPoints]; simp⟩

theorem firstSingle_stored : StoredAs firstSingle [[⟨7, 8⟩, ⟨1, 4⟩]] :=
  storedAs_single rfl (by decide) (by decide +kernel)

theorem firstSingle_matched : MatchedBy firstSingle (fun p => [p.getD 0 0, p.getD 1 0]) := by
  refine ⟨.head _, ?_, by decide +kernel⟩
  intro p hp q hq h
  have h1 : ∀ p ∈ eqPoints firstSingle, p = [p.getD 0 0, p.getD 1 0] := by decide +kernel
  rw [h1 p hp, h1 q hq]
  exact h

/-- The new equation is matched with nothing: the access of the new template is applied to the
indices of the original equation, whose first coordinate is 7. -/
theorem C70_matching_false : ¬ C70_full := by
  intro h
  obtain ⟨ws, h1, -⟩ := h Unit firstSingle [[⟨7, 8⟩, ⟨1, 4⟩]] _ firstSingle_ok firstSingle_stored
    firstSingle_matched
  have h2 : ∃ q ∈ eliminateSingle firstSingle [[⟨7, 8⟩, ⟨1, 4⟩]],
      q.matchedIndices = ∅ ∧ eqPoints q ≠ ∅ := by decide +kernel
  obtain ⟨q, hq, h3, h4⟩ := h2
  have h5 := (h1 q hq).elements
  rw [h3] at h5
  exact h4 (Finset.image_eq_empty.1 h5.symm)

/-- `x[i, j] = 0` for `i` in 1..3 and `j` in 7..7, matched with `x[i, j]`. -/
def lastSingle : Inst Unit :=
  { firstSingle with
    indices := {[1, 7], [2, 7], [3, 7]}
    matchedIndices := {[1, 7], [2, 7], [3, 7]} }

/-- It becomes an equation with one induction variable, matched with the same elements. -/
example : (eliminateSingle lastSingle [[⟨1, 4⟩, ⟨7, 8⟩]]).map
    (fun q => (q.dims, q.indices, q.matchedIndices)) =
    [(1, {[1], [2], [3]}, {[1, 7], [2, 7], [3, 7]})] := by decide +kernel

example : IndicesOk lastSingle ∧ StoredAs lastSingle [[⟨1, 4⟩, ⟨7, 8⟩]] ∧
    MatchedBy lastSingle (fun p => [p.getD 0 0, p.getD 1 0]) ∧
    SinglesLast [⟨1, 4⟩, ⟨7, 8⟩] ∧
    ∀ f, Inside lastSingle f → ∀ p ∈ lastSingle.indices, f p = [p.getD 0 0, p.getD 1 0] := by
  refine ⟨⟨by decide, by decide +kernel, by decide +kernel⟩,
    storedAs_single rfl (by decide) (by decide +kernel), ⟨.head _, ?_, by decide +kernel⟩,
    ⟨[⟨1, 4⟩], [⟨7, 8⟩], rfl, by decide, by decide⟩, ?_⟩
  · intro p hp q hq h
    have h1 : ∀ p ∈ eqPoints lastSingle, p = [p.getD 0 0, p.getD 1 0] := by decide +kernel
    rw [h1 p hp, h1 q hq]
    exact h
  · rintro f ⟨hf, -⟩ p -
    simp only [lastSingle, firstSingle, List.mem_cons, Access.mk.injEq, List.not_mem_nil, or_false,
      true_and] at hf
    rw [hf]

end Marco.Props
