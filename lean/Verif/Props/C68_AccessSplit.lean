import Verif.Lemmas.EquationSplit

/-!
# C68: splitting an equation on its accesses keeps the scalar equations and their matching
-/

namespace Marco.Props
open Marco Spec Split

/-- The property in full. -/
def C68_full : Prop := ∀ (β : Type) (op : Inst β) (w : Point → Point), IndicesOk op →
  MatchedBy op w →
  scalarEquations (accessSplit op) = scalarEquations [op] ∧ ∀ q ∈ accessSplit op, MatchedBy q w

/-! ### The scalar equations -/

/-- Whatever the accesses are, the equations created stand for the scalar equations of the original
one, and each of them has indices of the original one. -/
theorem C68_equations_partial {β : Type} (op : Inst β) (h : IndicesOk op) :
    scalarEquations (accessSplit op) = scalarEquations [op] ∧
    ∀ q ∈ accessSplit op, IndicesOk q ∧ q.dims = op.dims ∧ q.body = op.body ∧
      q.accesses = op.accesses ∧ q.matched = op.matched := by
  unfold accessSplit
  simp only
  split_ifs with h1 h2 h3
  · exact ⟨rfl, by simpa using h⟩
  · exact ⟨rfl, by simpa using h⟩
  · exact ⟨rfl, by simpa using h⟩
  · have hp := equationPartitions_parts (Finset.nonempty_iff_ne_empty.2 h1)
      (variablePartitions op.indices (matchAccesses op) op.matchedIndices)
    have hd : op.dims ≠ 0 := fun hd => h1 (h.none hd)
    refine ⟨?_, ?_⟩
    · simp only [scalarEquations, List.map_map, List.map_cons, List.map_nil, List.sum_cons,
        List.sum_nil, add_zero, eqPoints, if_neg hd]
      rw [← hp.sum]
      generalize equationPartitions op.indices _ = qs
      induction qs with
      | nil => simp
      | cons q qs ih => simp only [List.map_cons, List.sum_cons, Multiset.map_add, ih]; simp [hd]
    · intro q hq
      obtain ⟨r, hr, rfl⟩ := List.mem_map.1 hq
      refine ⟨⟨fun h => absurd h hd, fun _ => (hp.nonempty r hr).ne_empty, fun p hp' => ?_⟩,
        rfl, rfl, rfl, rfl⟩
      exact h.rank p ((hp.cover p).2 ⟨r, hr, hp'⟩)

/-! ### The matching -/

theorem mem_matchAccesses {β : Type} {op : Inst β} {f : Point → Point} :
    f ∈ matchAccesses op ↔ Inside op f := by
  unfold matchAccesses Inside
  simp only [List.mem_map, List.mem_filter, Bool.and_eq_true, decide_eq_true_eq,
    Finset.image_subset_iff]
  constructor
  · rintro ⟨⟨v, g⟩, ⟨h1, h2, h3⟩, rfl⟩
    simp only at h2 h3 ⊢
    subst h2
    exact ⟨h1, h3⟩
  · rintro ⟨h1, h2⟩
    exact ⟨_, ⟨h1, rfl, h2⟩, rfl⟩

theorem hit_iff {β : Type} {op : Inst β} {f : Point → Point} {u : Point} :
    Hit op f u ↔ u ∈ op.indices.image f := by
  simp [Hit]

/-- The facts about a matched array equation. -/
structure Ctx {β : Type} (op : Inst β) (w : Point → Point) (vs : List Partition) : Prop where
  ok : IndicesOk op
  m : MatchedBy op w
  ne : op.indices ≠ ∅
  classes : Classes op.indices op.matchedIndices (matchAccesses op) vs

theorem Ctx.img {β : Type} {op : Inst β} {w : Point → Point} {vs : List Partition}
    (c : Ctx op w vs) : op.matchedIndices = op.indices.image w := by
  have := c.m.elements
  rwa [eqPoints, if_neg (fun hd => c.ne (c.ok.none hd))] at this

theorem Ctx.inj {β : Type} {op : Inst β} {w : Point → Point} {vs : List Partition}
    (c : Ctx op w vs) : Set.InjOn w op.indices := by
  have := c.m.inj
  rwa [eqPoints, if_neg (fun hd => c.ne (c.ok.none hd))] at this

theorem Ctx.w_mem {β : Type} {op : Inst β} {w : Point → Point} {vs : List Partition}
    (c : Ctx op w vs) : w ∈ matchAccesses op :=
  mem_matchAccesses.2 ⟨c.m.access, fun p hp => by
    rw [c.img]; exact Finset.mem_image_of_mem _ hp⟩

theorem Ctx.w_acc {β : Type} {op : Inst β} {w : Point → Point} {vs : List Partition}
    (c : Ctx op w vs) {v : Partition} (hv : v ∈ vs) : w ∈ v.accesses := by
  obtain ⟨u, hu⟩ := c.classes.nonempty v hv
  rw [c.classes.accs v hv u hu w c.w_mem, ← c.img]
  exact (c.classes.cover u).2 ⟨v, hv, hu⟩

theorem Ctx.unique {β : Type} {op : Inst β} {w : Point → Point} {vs : List Partition}
    (c : Ctx op w vs) {a b : Partition} (ha : a ∈ vs) (hb : b ∈ vs) {u : Point}
    (hua : u ∈ a.variableIndices) (hub : u ∈ b.variableIndices) :
    a.variableIndices = b.variableIndices := by
  ext x
  rw [c.classes.cls a ha u hua, c.classes.cls b hb u hub]

theorem Ctx.inv_disj {β : Type} {op : Inst β} {w : Point → Point} {vs : List Partition}
    (c : Ctx op w vs) :
    vs.Pairwise (fun a b => Disjoint (inverseMap op.indices a) (inverseMap op.indices b)) := by
  refine (List.Pairwise.and_mem.1 c.classes.disj).imp fun {a b} hab => ?_
  rw [Finset.disjoint_left]
  intro p hpa hpb
  exact Finset.disjoint_left.1 hab.2.2 ((mem_inverseMap.1 hpa).2 w (c.w_acc hab.1))
    ((mem_inverseMap.1 hpb).2 w (c.w_acc hab.2.1))

theorem Ctx.good_iff {β : Type} {op : Inst β} {w : Point → Point} {vs : List Partition}
    (c : Ctx op w vs) {p : Point} (hp : p ∈ op.indices) :
    (∃ v ∈ vs, p ∈ inverseMap op.indices v) ↔ ¬ Torn op w p := by
  constructor
  · rintro ⟨v, hv, hpv⟩ ⟨f, hf, hhit, g, hg, hne⟩
    have hpv := (mem_inverseMap.1 hpv).2
    have hwv := hpv w (c.w_acc hv)
    rw [hit_iff] at hhit
    have hfv := hpv f ((c.classes.accs v hv _ hwv f (mem_matchAccesses.2 hf)).2 hhit)
    apply hne
    rw [hit_iff, hit_iff]
    exact (((c.classes.cls v hv _ hwv _).1 hfv).2 g (mem_matchAccesses.2 hg)).symm
  · intro ht
    have hwm : w p ∈ op.matchedIndices := by
      rw [c.img]; exact Finset.mem_image_of_mem _ hp
    obtain ⟨v, hv, hwv⟩ := (c.classes.cover _).1 hwm
    refine ⟨v, hv, mem_inverseMap.2 ⟨hp, fun f hf => ?_⟩⟩
    have hfm := c.classes.sub v hv f hf
    have hfi := mem_matchAccesses.1 hfm
    have hhit := (c.classes.accs v hv _ hwv f hfm).1 hf
    rw [c.classes.cls v hv _ hwv]
    refine ⟨hfi.2 p hp, fun g hg => ?_⟩
    by_contra hne
    exact ht ⟨f, hfi, hit_iff.2 hhit, g, mem_matchAccesses.1 hg, fun h => hne (by
      rw [hit_iff, hit_iff] at h
      exact h.symm)⟩

/-- The partitions of the split, for a matched array equation. -/
theorem Ctx.pieces {β : Type} {op : Inst β} {w : Point → Point} {vs : List Partition}
    (c : Ctx op w vs) : Parts op.indices (equationPartitions op.indices vs) ∧
      Kinds op.indices vs (equationPartitions op.indices vs) :=
  ⟨equationPartitions_parts (Finset.nonempty_iff_ne_empty.2 c.ne) vs,
    equationPartitions_kinds c.inv_disj⟩

theorem ctx_of {β : Type} {op : Inst β} {w : Point → Point} (h : IndicesOk op)
    (hm : MatchedBy op w) (hne : op.indices ≠ ∅) :
    Ctx op w (variablePartitions op.indices (matchAccesses op) op.matchedIndices) := by
  refine ⟨h, hm, hne, variablePartitions_classes ?_ _⟩
  have := hm.elements
  rw [eqPoints, if_neg (fun hd => hne (h.none hd))] at this
  rw [this]
  exact (Finset.nonempty_iff_ne_empty.2 hne).image _

theorem matched_sub {β : Type} {op : Inst β} {w : Point → Point} (h : IndicesOk op)
    (hm : MatchedBy op w) (hne : op.indices ≠ ∅) {s : Finset Point} (hs : s ⊆ op.indices) :
    MatchedBy { op with indices := s, matchedIndices := s.image w } w where
  access := hm.access
  inj := by
    have := hm.inj
    have hd : op.dims ≠ 0 := fun hd => hne (h.none hd)
    simp only [eqPoints, if_neg hd] at this ⊢
    exact this.mono (by exact_mod_cast hs)
  elements := by
    have hd : op.dims ≠ 0 := fun hd => hne (h.none hd)
    simp [eqPoints, hd]

/-- With one access to consider there is nothing to tear. -/
theorem not_torn_of_single {β : Type} {op : Inst β} {w : Point → Point} (h : IndicesOk op)
    (hm : MatchedBy op w) (hne : op.indices ≠ ∅) (hl : (matchAccesses op).length ≤ 1)
    (p : Point) : ¬ Torn op w p := by
  have c := ctx_of h hm hne
  have hw := c.w_mem
  have hall : ∀ f ∈ matchAccesses op, f = w := by
    match he : matchAccesses op, hl with
    | [], _ => intro f hf; simp at hf
    | [a], _ =>
      intro f hf
      rw [he] at hw
      rw [List.mem_singleton.1 hf, List.mem_singleton.1 hw]
  rintro ⟨f, hf, -, g, hg, hne⟩
  rw [hall f (mem_matchAccesses.2 hf)] at hne
  exact hne Iff.rfl

/-- The matching is kept exactly if no index is torn, or all of them are (and then the equation is
left as it is). -/
theorem C68_matching_partial {β : Type} (op : Inst β) (w : Point → Point) (h : IndicesOk op)
    (hm : MatchedBy op w) :
    (∀ q ∈ accessSplit op, MatchedBy q w) ↔
      (∀ p ∈ op.indices, ¬ Torn op w p) ∨ (∀ p ∈ op.indices, Torn op w p) := by
  by_cases hne : op.indices = ∅
  · simp only [accessSplit, if_pos hne]
    simp [hm, hne]
  have c := ctx_of h hm hne
  unfold accessSplit
  simp only [if_neg hne]
  split_ifs with h2 h3
  · refine ⟨fun _ => Or.inl fun p _ => not_torn_of_single h hm hne h2 p, fun _ => ?_⟩
    simpa using hm
  all_goals obtain ⟨hp, hk⟩ := c.pieces
  all_goals generalize (variablePartitions op.indices (matchAccesses op) op.matchedIndices) = vs at *
  all_goals generalize (equationPartitions op.indices vs) = qs at *
  · refine ⟨fun _ => ?_, fun _ => by simpa using hm⟩
    obtain ⟨q, rfl⟩ := List.length_eq_one_iff.1 h3
    have hq : ∀ p, p ∈ op.indices ↔ p ∈ q.equationIndices := fun p => by simpa using hp.cover p
    rcases hk q (by simp) with ⟨-, -, h4⟩ | ⟨v, hv, -, h4, -⟩
    · right
      intro p hpi
      by_contra ht
      obtain ⟨v, hv, hpv⟩ := (c.good_iff hpi).2 ht
      exact ((h4 p).1 ((hq p).1 hpi)).2 v hv hpv
    · left
      intro p hpi
      refine (c.good_iff hpi).1 ⟨v, hv, ?_⟩
      rw [← h4]
      exact (hq p).1 hpi
  · constructor
    · intro hall
      by_contra hcon
      rw [not_or] at hcon
      obtain ⟨hc1, hc2⟩ := hcon
      push Not at hc1 hc2
      obtain ⟨p, hpi, ht⟩ := hc1
      obtain ⟨q, hq, hpq⟩ := (hp.cover p).1 hpi
      rcases hk q hq with ⟨-, h4, -⟩ | ⟨v, hv, -, h4, -⟩
      · have := (hall _ (List.mem_map.2 ⟨q, hq, rfl⟩)).elements
        simp only [h4, eqPoints, if_neg (fun hd => hne (h.none hd))] at this
        have := Finset.mem_image_of_mem w hpq
        simp_all
      · refine absurd ht ((c.good_iff hpi).1 ⟨v, hv, ?_⟩)
        rw [← h4]
        exact hpq
    · rintro (hgood | hbad)
      · intro i hi
        obtain ⟨q, hq, rfl⟩ := List.mem_map.1 hi
        have hsub : q.equationIndices ⊆ op.indices := fun p hpq => (hp.cover p).2 ⟨q, hq, hpq⟩
        have hv : q.variableIndices = q.equationIndices.image w := by
          obtain ⟨p0, hp0⟩ := hp.nonempty q hq
          rcases hk q hq with ⟨-, -, h4⟩ | ⟨v, hv, -, h4, h5⟩
          · obtain ⟨v, hv, hpv⟩ := (c.good_iff (hsub hp0)).2 (hgood p0 (hsub hp0))
            exact absurd hpv (((h4 p0).1 hp0).2 v hv)
          · rw [h5]
            apply Finset.Subset.antisymm
            · intro u hu
              obtain ⟨f, hf, p, hpq, rfl⟩ := mem_reached.1 hu
              rw [h4] at hpq
              have hfu := (mem_inverseMap.1 hpq).2 f hf
              have hm' := (c.classes.cover _).2 ⟨v, hv, hfu⟩
              rw [c.img] at hm'
              obtain ⟨e, he, hwe⟩ := Finset.mem_image.1 hm'
              obtain ⟨v', hv', hev⟩ := (c.good_iff he).2 (hgood e he)
              have h6 := (mem_inverseMap.1 hev).2 w (c.w_acc hv')
              rw [hwe] at h6
              refine Finset.mem_image.2 ⟨e, ?_, hwe⟩
              rw [h4, mem_inverseMap]
              refine ⟨he, fun g hg => ?_⟩
              have h7 := c.unique hv hv' hfu h6
              rw [h7]
              refine (mem_inverseMap.1 hev).2 g ?_
              have hgl := c.classes.sub v hv g hg
              rw [c.classes.accs v' hv' _ h6 g hgl, ← c.classes.accs v hv _ hfu g hgl]
              exact hg
            · intro u hu
              obtain ⟨p, hpq, rfl⟩ := Finset.mem_image.1 hu
              exact mem_reached.2 ⟨w, c.w_acc hv, p, hpq, rfl⟩
        rw [hv]
        exact matched_sub h hm hne hsub
      · exfalso
        apply h3
        have hall : ∀ q ∈ qs, q.equationIndices = op.indices := by
          intro q hq
          rcases hk q hq with ⟨-, -, h4⟩ | ⟨v, hv, -, h4, -⟩
          · ext p
            rw [h4]
            refine ⟨fun h => h.1, fun hpi => ⟨hpi, fun v hv hpv => ?_⟩⟩
            exact (c.good_iff hpi).1 ⟨v, hv, hpv⟩ (hbad p hpi)
          · obtain ⟨p0, hp0⟩ := hp.nonempty q hq
            have hpi := (hp.cover p0).2 ⟨q, hq, hp0⟩
            exact absurd (hbad p0 hpi) ((c.good_iff hpi).1 ⟨v, hv, by rw [← h4]; exact hp0⟩)
        match qs, hp, hall with
        | [], hp, _ =>
          obtain ⟨p, hpi⟩ := Finset.nonempty_iff_ne_empty.2 hne
          simpa using (hp.cover p).1 hpi
        | [_], _, _ => rfl
        | a :: b :: l, hp, hall =>
          have := (List.pairwise_cons.1 hp.disj).1 b (by simp)
          rw [hall a (by simp), hall b (by simp), Finset.disjoint_self_iff_empty] at this
          exact absurd this hne

/-- After the split, an access that was considered accesses only matched elements of an equation, or
none of them. -/
theorem C68_overlap_partial {β : Type} (op : Inst β) (w : Point → Point) (h : IndicesOk op)
    (hm : MatchedBy op w) (f : Point → Point) (hf : Inside op f) :
    ∀ q ∈ accessSplit op, (∀ p ∈ q.indices, f p ∈ q.matchedIndices) ∨
      (∀ p ∈ q.indices, f p ∉ q.matchedIndices) := by
  by_cases hne : op.indices = ∅
  · simp only [accessSplit, if_pos hne]
    simp [hne]
  have c := ctx_of h hm hne
  unfold accessSplit
  simp only [if_neg hne]
  split_ifs with h2 h3
  · simpa using Or.inl hf.2
  · simpa using Or.inl hf.2
  obtain ⟨hp, hk⟩ := c.pieces
  generalize variablePartitions op.indices (matchAccesses op) op.matchedIndices = vs at *
  intro i hi
  obtain ⟨q, hq, rfl⟩ := List.mem_map.1 hi
  have hsub : q.equationIndices ⊆ op.indices := fun p hpq => (hp.cover p).2 ⟨q, hq, hpq⟩
  rcases hk q hq with ⟨-, h4, -⟩ | ⟨v, hv, -, h4, h5⟩
  · right; simp [h4]
  · have hr : ∀ u ∈ q.variableIndices, u ∈ v.variableIndices := by
      intro u hu
      rw [h5] at hu
      obtain ⟨g, hg, p, hpq, rfl⟩ := mem_reached.1 hu
      rw [h4] at hpq
      exact (mem_inverseMap.1 hpq).2 g hg
    by_cases hfv : f ∈ v.accesses
    · left
      intro p hpq
      show f p ∈ q.variableIndices
      rw [h5]
      exact mem_reached.2 ⟨f, hfv, p, hpq, rfl⟩
    · right
      intro p hpq hu
      apply hfv
      rw [c.classes.accs v hv _ (hr _ hu) f (mem_matchAccesses.2 hf)]
      exact Finset.mem_image_of_mem _ (hsub hpq)

/-! ### Witnesses -/

/-- `x[i] = f(x[11 - i], x[5])` for `i` in 1..10, matched with `x[i]`. -/
def mirrored : Inst Unit where
  dims := 1
  body := fun _ => ()
  accesses := [⟨0, fun p => p⟩, ⟨0, fun p => p.map (11 - ·)⟩, ⟨0, fun _ => [5]⟩]
  indices := (Finset.Ico (1 : Int) 11).image fun i => [i]
  matched := 0
  matchedIndices := (Finset.Ico (1 : Int) 11).image fun i => [i]

theorem mirrored_ok : IndicesOk mirrored := ⟨by decide, by decide +kernel, by decide +kernel⟩

theorem mirrored_matched : MatchedBy mirrored (fun p => p) where
  access := .head _
  inj := fun _ _ _ _ h => h
  elements := by decide +kernel

/-- The equations for 5 and 6 are left without matched elements. -/
theorem C68_matching_false : ¬ C68_full := by
  intro h
  have h1 := (h Unit mirrored (fun p => p) mirrored_ok mirrored_matched).2
  have h2 : ∀ q ∈ accessSplit mirrored, q.matchedIndices = q.indices := by
    intro q hq
    have h3 := (h1 q hq).elements
    have h4 : q.dims = 1 := ((C68_equations_partial mirrored mirrored_ok).2 q hq).2.1
    rw [eqPoints, h4] at h3
    simpa using h3
  have h5 : ¬ ∀ q ∈ accessSplit mirrored, q.matchedIndices = q.indices := by decide +kernel
  exact h5 h2

/-- `x[i] = f(x[5])` for `i` in 1..10, matched with `x[i]`. -/
def pinned : Inst Unit :=
  { mirrored with accesses := [⟨0, fun p => p⟩, ⟨0, fun _ => [5]⟩] }

/-- It becomes the equation for 5 and the equation for the other indices. -/
example : (accessSplit pinned).map (fun q => (q.indices, q.matchedIndices)) =
    [({[5]}, {[5]}), (pinned.indices \ {[5]}, pinned.indices \ {[5]})] := by decide +kernel

example : ∀ q ∈ accessSplit pinned, MatchedBy q (fun p => p) := by
  have hok : IndicesOk pinned := ⟨by decide, by decide +kernel, by decide +kernel⟩
  have hm : MatchedBy pinned (fun p => p) := ⟨.head _, fun _ _ _ _ h => h, by decide +kernel⟩
  rw [C68_matching_partial pinned _ hok hm]
  left
  rintro p - ⟨f, ⟨hf, -⟩, hh, g, -, hne⟩
  simp only [pinned, List.mem_cons, Access.mk.injEq, List.not_mem_nil, or_false] at hf
  rcases hf with ⟨-, rfl⟩ | ⟨-, rfl⟩
  · exact hne Iff.rfl
  · obtain ⟨_, _, h⟩ := hh
    exact hne (by simp only at h ⊢; rw [h])

end Marco.Props
