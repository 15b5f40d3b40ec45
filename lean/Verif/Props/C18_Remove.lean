import Verif.Lemmas.IndexSetRemove
import Verif.Props.C07_History

/-!
# C18: removing from an index set removes exactly the given points

False of the code as it stands, in two ways.

* `IndexSet::remove` (IndexSet.cpp:318-346) collects the leaves to be changed, and then changes them
  one after the other. A leaf that is left with too few objects is collapsed, and its objects are
  moved to other leaves; if one of these has not been changed yet and has to be split, one half of it
  goes to a new leaf, which is not in the list: its points are not removed (`C18_points_left_false`,
  20 points and one removal).
* A relocated object may be merged with two objects of the destination, which then has too few of
  them, and is scheduled for removal. If it has become the root in the meantime (RTree.h:1131-1133),
  its objects are moved out (RTree.h:1060) and never put back, and the boundary of an empty node is
  computed (`C18_memory_false`).

Whenever a removal is executed without undefined behaviour, it removes no other points and adds none.
It is exact if the leaves that it overlaps keep enough objects, or if there is only one.
-/

namespace Marco.Props
open Marco Spec RTree IndexSet

/-- The first half of C18: the points, for the sets built by any history. -/
def C18_exact_full : Prop := ∀ (k : Nat) (ops : List UpdateOp), (∀ o ∈ ops, o.Valid k) →
  ∀ fuel s, runUpdates cfg fuel IndexSet.empty ops = .ok s → ∀ (q : Box), Ranked k q → ∀ s',
    removeBox cfg fuel s q = .ok s' → ∀ p : Point, p.length = k → 0 < k →
      (s'.containsPoint p = true ↔ s.containsPoint p = true ∧ ¬ InB p q)

/-- The second half: no undefined behaviour. (That the loops terminate is not part of it.) -/
def C18_memory_full : Prop := ∀ (k : Nat) (ops : List UpdateOp), (∀ o ∈ ops, o.Valid k) →
  ∀ fuel s, runUpdates cfg fuel IndexSet.empty ops = .ok s → ∀ (q : Box), Ranked k q →
    removeBox cfg fuel s q ≠ .error .ub

/-- Twenty points: two leaves, one with 4 objects and one with 16. -/
def twoLeaves : List UpdateOp :=
  ([0, 2, 4, 6] ++ (List.range 16).map fun i => 1000 + 2 * (i : Int)).map
    fun x => .insert (.point [x])

theorem C18_points_left_false : ¬ C18_exact_full := by
  intro h
  have hv : ∀ o ∈ twoLeaves, o.Valid 1 := by
    intro o ho
    obtain ⟨x, -, rfl⟩ := List.mem_map.1 ho
    exact ⟨rfl, by decide⟩
  have he : (match (do
        let s ← runUpdates cfg 100 IndexSet.empty twoLeaves
        removeBox cfg 100 s [⟨4, 1010⟩] : Res IndexSet) with
      | .ok s' => s'.containsPoint [1008]
      | _ => false) = true := by decide +kernel
  split at he
  · rename_i s' hs
    rw [except_bind_ok] at hs
    obtain ⟨s, h1, h2⟩ := hs
    have := ((h 1 twoLeaves hv 100 s h1 [⟨4, 1010⟩] (by unfold Ranked; decide) s' h2 [1008] rfl
      (by decide)).1 he).2
    exact this (.cons (by simp [InR]) .nil)
  · simp at he

/-- Eighteen points of the plane, and the removal of one of them: two leaves, the second of which has
four objects, among which the neighbours of a point of the first one. -/
def neighbours : List UpdateOp :=
  ([[0, 0], [4, 0], [0, 17], [0, 2], [0, 4], [0, 6], [0, 8], [2, 0], [2, 2], [2, 4], [2, 6], [2, 8],
    [2, 10], [3, 17], [5, 17], [18, 2], [20, 20], [4, 17]].map fun p => .insert (.point p)) ++
  [.removeBox [⟨0, 1⟩, ⟨17, 18⟩]]

theorem C18_memory_false : ¬ C18_memory_full := by
  intro h
  have hv : ∀ o ∈ neighbours, o.Valid 2 := by
    intro o ho
    rcases List.mem_append.1 ho with ho | ho
    · obtain ⟨p, hp, rfl⟩ := List.mem_map.1 ho
      have : ∀ p ∈ [[0, 0], [4, 0], [0, 17], [0, 2], [0, 4], [0, 6], [0, 8], [2, 0], [2, 2], [2, 4],
        [2, 6], [2, 8], [2, 10], [3, 17], [5, 17], [18, 2], [20, 20], [4, 17]],
        List.length (α := Int) p = 2 := by decide
      exact ⟨this p hp, by decide⟩
    · rw [List.mem_singleton] at ho
      subst ho
      show Ranked 2 [⟨0, 1⟩, ⟨17, 18⟩]
      unfold Ranked
      decide
  have he : (match runUpdates cfg 100 IndexSet.empty neighbours with
      | .ok s => (match removeBox cfg 100 s [⟨0, 5⟩, ⟨0, 17⟩] with
        | .error .ub => true
        | _ => false)
      | _ => false) = true := by decide +kernel
  split at he
  · rename_i s hs
    split at he
    · rename_i hr
      exact h 2 neighbours hv 100 s hs [⟨0, 5⟩, ⟨0, 17⟩] (by unfold Ranked; decide) hr
    · simp at he
  · simp at he

/-! ### What always holds -/

theorem hookOk_of_eq {C : Cfg} (hook : C.hook = insertionHook) (k : Nat) : C.HookOk k := by
  refine ⟨?_, ?_⟩ <;> rw [hook]
  · exact fun _ hl => (insertionHook_spec hl).1
  · exact insertionHook_single

theorem removeBoxes_spec {C : Cfg} {k fuel : Nat} (hC : C.Sound) (hk : C.HookOk k) :
    ∀ {bs : List Box} {s s' : IndexSet}, StoredOk k s → (∀ b ∈ bs, Ranked k b) →
    removeBoxes C fuel s bs = .ok s' →
    StoredOk k s' ∧ (∀ p, Has s p → ¬ InL p bs → Has s' p) ∧ (∀ p, Has s' p → Has s p) ∧
      (DisjL s.ranges → DisjL s'.ranges)
  | [], s, s', hs, _, h => by
    simp only [removeBoxes, Except.ok.injEq] at h
    subst h
    exact ⟨hs, fun _ h _ => h, fun _ h => h, id⟩
  | b :: bs, s, s', hs, hb, h => by
    rw [removeBoxes, except_bind_ok] at h
    obtain ⟨s1, h1, h2⟩ := h
    obtain ⟨i1, i2⟩ := removeBox_spec hC hk (hb b (by simp)) hs h1
    obtain ⟨j1, j2, j3, j4⟩ := removeBoxes_spec hC hk i1 (fun c hc => hb c (by simp [hc])) h2
    refine ⟨j1, fun p hp hn => ?_, fun p hp => i2.only p (j3 p hp), fun hd => j4 (i2.disj hd)⟩
    rw [inL_cons, not_or] at hn
    exact j2 p (i2.keep p hp hn.1) hn.2

theorem pairs_ranked {k : Nat} {s t : IndexSet} {l r : Node} (hs : SetOk k s) (ht : SetOk k t)
    (hl : s.root = some l) (hr : t.root = some r) {b : Box} :
    b ∈ (visitPairs l r).map Prod.snd ↔ b ∈ t.ranges ∧ ∃ p, InB p b ∧ Has s p := by
  have cl := (hs.tight l hl).covers
  have cr := (ht.tight r hr).covers
  rw [ranges_some hr]
  simp only [List.mem_map, Prod.exists, exists_eq_right]
  constructor
  · rintro ⟨a, h⟩
    obtain ⟨h1, h2, h3⟩ := (mem_visitPairs cl cr a b).1 h
    obtain ⟨p, p1, p2⟩ := (overlaps_iff' (Covers.objects cl h1).1 (Covers.objects cr h2).1).1 h3
    exact ⟨h2, p, p2, a, by rwa [ranges_some hl], p1⟩
  · rintro ⟨h2, p, p2, a, h1, p1⟩
    rw [ranges_some hl] at h1
    exact ⟨a, (mem_visitPairs cl cr a b).2 ⟨h1, h2,
      (overlaps_iff' (Covers.objects cl h1).1 (Covers.objects cr h2).1).2 ⟨p, p1, p2⟩⟩⟩

theorem removeSet_spec {C : Cfg} {k fuel : Nat} (hC : C.Sound) (hk : C.HookOk k) {s s' t : IndexSet}
    (hs : StoredOk k s) (ht : SetOk k t) (h : removeSet C fuel s t = .ok s') :
    StoredOk k s' ∧ (∀ p, Has s p → ¬ Has t p → Has s' p) ∧ (∀ p, Has s' p → Has s p) ∧
      (DisjL s.ranges → DisjL s'.ranges) := by
  unfold removeSet at h
  split at h
  · rename_i l r hl hr
    have hb : ∀ b ∈ (visitPairs l r).map Prod.snd, b ∈ t.ranges := fun b hb =>
      ((pairs_ranked hs.setOk ht hl hr).1 hb).1
    obtain ⟨j1, j2, j3, j4⟩ := removeBoxes_spec hC hk hs
      (fun b hb' => ranges_ranked ht b (hb b hb')) h
    refine ⟨j1, fun p hp hn => j2 p hp ?_, j3, j4⟩
    rintro ⟨b, hb', hp'⟩
    exact hn ⟨b, hb b hb', hp'⟩
  · simp only [Except.ok.injEq] at h
    subst h
    exact ⟨hs, fun _ h _ => h, fun _ h => h, id⟩

/-- **C18**, what holds of every removal of a box that is executed without undefined behaviour: no
other point is removed, none is added, the tree stays well formed, and the stored boxes stay
disjoint.

Missing: all the points of the box are removed, and there is no undefined behaviour (both are false in
general). -/
theorem C18_box_partial {C : Cfg} {k fuel : Nat} (hC : AnyChoice C) (hook : C.hook = insertionHook)
    {s s' : IndexSet} (hs : StoredOk k s) {q : Box} (hq : Ranked k q)
    (h : removeBox C fuel s q = .ok s') :
    StoredOk k s' ∧ (DisjL s.ranges → DisjL s'.ranges) ∧ ∀ p : Point, p.length = k → 0 < k →
      (s.containsPoint p = true → ¬ InB p q → s'.containsPoint p = true) ∧
      (s'.containsPoint p = true → s.containsPoint p = true) := by
  obtain ⟨h1, h2⟩ := removeBox_spec hC.sound (hookOk_of_eq hook k) hq hs h
  refine ⟨h1, h2.disj, fun p hp hk => ?_⟩
  rw [containsPoint_iff h1.setOk hp hk, containsPoint_iff hs.setOk hp hk]
  exact ⟨h2.keep p, h2.only p⟩

/-- **C18**, what holds of every removal of a set that is executed without undefined behaviour. -/
theorem C18_set_partial {C : Cfg} {k fuel : Nat} (hC : AnyChoice C) (hook : C.hook = insertionHook)
    {s s' t : IndexSet} (hs : StoredOk k s) (ht : SetOk k t) (h : removeSet C fuel s t = .ok s') :
    StoredOk k s' ∧ (DisjL s.ranges → DisjL s'.ranges) ∧ ∀ p : Point, p.length = k → 0 < k →
      (s.containsPoint p = true → t.containsPoint p = false → s'.containsPoint p = true) ∧
      (s'.containsPoint p = true → s.containsPoint p = true) := by
  obtain ⟨h1, h2, h3, h4⟩ := removeSet_spec hC.sound (hookOk_of_eq hook k) hs ht h
  refine ⟨h1, h4, fun p hp hk => ?_⟩
  rw [containsPoint_iff h1.setOk hp hk, containsPoint_iff hs.setOk hp hk]
  refine ⟨fun hs ht' => h2 p hs fun hh => ?_, h3 p⟩
  rw [← containsPoint_iff ht hp hk, ht'] at hh
  cases hh

/-- **C18**: the sets built by a history of insertions and removals that is executed without
undefined behaviour are well formed, so that the theorems of this file apply to them. -/
theorem C18_histories {C : Cfg} {k fuel : Nat} (hC : AnyChoice C) (hook : C.hook = insertionHook) :
    ∀ {ops : List UpdateOp} {s s' : IndexSet}, StoredOk k s → DisjL s.ranges →
    (∀ o ∈ ops, o.Valid k) → runUpdates C fuel s ops = .ok s' → StoredOk k s' ∧ DisjL s'.ranges
  | [], s, s', hs, hd, _, h => by
    simp only [runUpdates, Except.ok.injEq] at h
    subst h
    exact ⟨hs, hd⟩
  | o :: os, s, s', hs, hd, ho, h => by
    rw [runUpdates, except_bind_ok] at h
    obtain ⟨s1, h1, h2⟩ := h
    have hk := hookOk_of_eq hook k
    have hv := ho o (by simp)
    have hs1 : StoredOk k s1 ∧ DisjL s1.ranges := by
      cases o with
      | insert o =>
        obtain ⟨a1, -, a3⟩ := run_spec hC.sound hk hs hv h1
        exact ⟨a1, a3 hd⟩
      | removeBox b =>
        obtain ⟨a1, a2⟩ := removeBox_spec hC.sound hk hv hs h1
        exact ⟨a1, a2.disj hd⟩
      | removeSet t =>
        obtain ⟨a1, -, -, a4⟩ := removeSet_spec hC.sound hk hs hv h1
        exact ⟨a1, a4 hd⟩
    exact C18_histories hC hook hs1.1 hs1.2 (fun c hc => ho c (by simp [hc])) h2

/-- The history of `C18_points_left_false` is such a history. -/
example : ∃ s, runUpdates cfg 100 IndexSet.empty twoLeaves = .ok s ∧ StoredOk 1 s := by
  have he : (match runUpdates cfg 100 IndexSet.empty twoLeaves with
      | .ok s => s.ranges.length == 20
      | _ => false) = true := by decide +kernel
  split at he
  · rename_i s hs
    refine ⟨s, hs, (C18_histories cfg_anyChoice rfl storedOk_empty ?_ ?_ hs).1⟩
    · simp [DisjL, IndexSet.empty, ranges]
    · intro o ho
      obtain ⟨x, -, rfl⟩ := List.mem_map.1 ho
      exact ⟨rfl, by decide⟩
  · simp at he

/-! ### Exactness -/

theorem visited_nodup {k : Nat} {s : IndexSet} {t : Node} (hs : StoredOk k s) (ht : s.root = some t)
    (q : Box) : (overlappingLeaves q t.weight [t]).Nodup := by
  rw [visited_eq]
  refine List.Nodup.sublist (List.Sublist.map _ List.filter_sublist) ?_
  exact (hs.addrs t ht).1.sublist (Node.leafNodes_sublist t)

theorem visited_all {k : Nat} {s : IndexSet} {t : Node} (hs : StoredOk k s) (ht : s.root = some t)
    {q : Box} (hq : Ranked k q) : ∀ x ∈ t.leaves, x.1 ∈ overlappingLeaves q t.weight [t] ∨
      ∀ o ∈ x.2, Disj o q := by
  intro x hx
  obtain ⟨m, hm, rfl⟩ := List.mem_map.1 hx
  have hmt := Node.leafNodes_all (hs.tight t ht) hm
  by_cases hov : m.bd.overlaps q = true
  · left
    rw [visited_eq]
    exact List.mem_map.2 ⟨m, List.mem_filter.2 ⟨hm, hov⟩, rfl⟩
  · right
    intro o ho p hp
    refine hov ((overlaps_iff' hmt.bd hq).2 ⟨p, ?_, hp.2⟩)
    exact hmt.mbr.1 o (by rw [Node.objects_leaf (Node.leafNodes_ch hm)]; exact ho) p hp.1

theorem labelled_of_stored {k : Nat} {s : IndexSet} {t : Node} (hs : StoredOk k s)
    (ht : s.root = some t) (q : Box) : ∃ lab, Labelled lab k s ∧
      ∀ j ∈ overlappingLeaves q t.weight [t], lab j = 0 ∧ j < s.next := by
  obtain ⟨lab, H, hok⟩ := hs.treeOk ht
  refine ⟨lab, fun t' ht' => ?_, fun j hj => ?_⟩
  · rw [ht, Option.some.injEq] at ht'
    subst ht'
    exact ⟨H, hok⟩
  · rw [visited_eq, List.mem_map] at hj
    obtain ⟨m, hm, rfl⟩ := hj
    have hm := (List.mem_filter.1 hm).1
    refine ⟨leaf_label hok.wf hm, hok.lt _ ?_⟩
    exact (Node.leafNodes_sublist t).subset (List.mem_map_of_mem hm)

theorem leafStays_of {k mn : Nat} {s : IndexSet} {t : Node} {q : Box} (hq : Ranked k q)
    (hs : StoredOk k s) (ht : s.root = some t) (h : LeavesStay mn q s) :
    ∀ j ∈ overlappingLeaves q t.weight [t], LeafStays mn q t j := by
  intro j hj
  rw [visited_eq, List.mem_map] at hj
  obtain ⟨m, hm, rfl⟩ := hj
  obtain ⟨hm, hov⟩ := List.mem_filter.1 hm
  have hmt := Node.leafNodes_all (hs.tight t ht) hm
  obtain ⟨l, h1, h2, h3⟩ := Node.leafNodes_all (h t ht) hm (Node.leafNodes_ch hm)
    ((overlaps_iff' hmt.bd hq).1 hov)
  refine ⟨m.obs, List.mem_map.2 ⟨m, hm, rfl⟩, h2.trans ?_⟩
  exact differences_length hq hmt.obs h1 h3

/-- Removing from a set that keeps its leaves, or is stored in one, always has a result. -/
theorem removeBox_total {C : Cfg} {k fuel : Nat} (hC : AnyChoice C) (hook : C.hook = insertionHook)
    {s : IndexSet} (hs : StoredOk k s) {q : Box} (hq : Ranked k q)
    (h : RootLeaf s ∨ LeavesStay C.mn q s) : ∃ s', removeBox C fuel s q = .ok s' := by
  unfold removeBox
  cases hr : s.root with
  | none => exact ⟨s, rfl⟩
  | some t =>
    simp only
    obtain ⟨lab, hlab, hj⟩ := labelled_of_stored hs hr q
    rcases h with h | h
    · have hch := h t hr
      rw [visited_eq, Node.leafNodes_leaf hch]
      by_cases hov : t.bd.overlaps q = true
      · obtain ⟨i, b, ch, obs⟩ := t
        simp only [Node.ch_mk] at hch
        subst hch
        simp only [List.filter_cons, hov, ↓reduceIte, List.filter_nil, List.map_cons, List.map_nil,
          Node.id_mk]
        rw [removeFromLeaves]
        have hl : deref (.mk i b [] obs) i = .ok ([], .mk i b [] obs) := by
          rw [deref_ok, locate, if_pos rfl]
        have : ∃ s', removeFromLeaf C fuel q s i = .ok s' := by
          unfold removeFromLeaf
          rw [except_bind_of_ok (orUb_ok.2 hr), except_bind_of_ok hl]
          simp only
          split
          · have : ∃ r, adjustTree C fuel s.next []
                (.mk i b [] (differences q obs)) = .ok r := by
              by_cases h0 : (Node.mk i b [] (differences q obs)).fanOut = 0
              · unfold adjustTree
                rw [if_pos (show ([] : Ctx).isEmpty = true from rfl), if_pos h0]
                exact ⟨_, rfl⟩
              · have hne := ne_of_fanOut (n := Node.mk i b [] (differences q obs)) (by omega)
                obtain ⟨⟨t, k⟩, hs⟩ := splitUp_ok hC (ctx := []) (next := s.next) hne
                obtain ⟨t', hu⟩ := updateBoundaries_ok (ctx := []) hne
                unfold adjustTree
                rw [hs, hu, if_neg h0, if_pos (show ([] : Ctx).isEmpty = true from rfl)]
                split <;> exact ⟨_, rfl⟩
            obtain ⟨⟨r, next⟩, hr'⟩ := this
            simp only [Node.id_mk, Node.bd_mk, Node.ch_mk, Node.obs_mk]
            rw [except_bind_of_ok hr']
            exact ⟨_, rfl⟩
          · exact ⟨_, rfl⟩
        obtain ⟨s', hs'⟩ := this
        rw [except_bind_of_ok hs']
        exact ⟨s', rfl⟩
      · simp only [List.filter_cons, hov, Bool.false_eq_true, ↓reduceIte, List.filter_nil,
          List.map_nil]
        exact ⟨s, rfl⟩
    · exact removeFromLeaves_total hC hC.sound (hookOk_of_eq hook k) hq hlab hr
        (visited_nodup hs hr q) hj (leafStays_of hq hs hr h)

theorem removeBox_exact {C : Cfg} {k fuel : Nat} (hC : AnyChoice C) (hook : C.hook = insertionHook)
    {s s' : IndexSet} (hs : StoredOk k s) {q : Box} (hq : Ranked k q)
    (h : OneLeaf q s ∨ LeavesStay C.mn q s) (hr : removeBox C fuel s q = .ok s') (p : Point) :
    Has s' p ↔ Has s p ∧ ¬ InB p q := by
  have hk := hookOk_of_eq hook k
  obtain ⟨-, hw⟩ := removeBox_spec hC.sound hk hq hs hr
  refine ⟨fun hp => ⟨hw.only p hp, ?_⟩, fun hp => hw.keep p hp.1 hp.2⟩
  unfold removeBox at hr
  cases ht : s.root with
  | none =>
    simp only [ht, Except.ok.injEq] at hr
    subst hr
    obtain ⟨o, ho, -⟩ := hp
    rw [ranges_none ht] at ho
    cases ho
  | some t =>
    simp only [ht] at hr
    obtain ⟨lab, hlab, hj⟩ := labelled_of_stored hs ht q
    refine removeFromLeaves_exact hC.sound hk hC.mn hq hlab ht (visited_nodup hs ht q) hj
      (visited_all hs ht hq) (fun j hj' => ?_) hr p hp
    rcases h with h | h
    · exfalso
      obtain ⟨i, hi⟩ := h t ht
      have hall : ∀ j ∈ overlappingLeaves q t.weight [t], j = i := by
        intro j hj
        rw [visited_eq, List.mem_map] at hj
        obtain ⟨m, hm, rfl⟩ := hj
        obtain ⟨hm, hov⟩ := List.mem_filter.1 hm
        have hmt := Node.leafNodes_all (hs.tight t ht) hm
        exact Node.leafNodes_all hi hm (Node.leafNodes_ch hm) ((overlaps_iff' hmt.bd hq).1 hov)
      have hnd := visited_nodup hs ht q
      revert hj' hall hnd
      generalize overlappingLeaves q t.weight [t] = l
      intro hj' hall hnd
      match l, hj' with
      | a :: b :: l, _ =>
        rw [List.nodup_cons] at hnd
        exact hnd.1 (by simp [(hall a (by simp)).trans (hall b (by simp)).symm])
    · exact leafStays_of hq hs ht h j (List.dropLast_subset _ hj')

theorem RootLeaf.oneLeaf {s : IndexSet} (h : RootLeaf s) (q : Box) : OneLeaf q s := by
  intro t ht
  refine ⟨t.id, .mk (fun _ _ => rfl) fun c hc => ?_⟩
  rw [h t ht] at hc
  cases hc

/-- **C18**, exactness: if the set is stored in one leaf, or every leaf that the box overlaps has
at least `mn` objects that are not within the box, removing the box has a result, without undefined
behaviour and whatever the fuel, and removes exactly the points of the box.

Missing: the removals that leave a leaf other than the root with too few objects. -/
theorem C18_exact_partial {C : Cfg} {k fuel : Nat} (hC : AnyChoice C) (hook : C.hook = insertionHook)
    {s : IndexSet} (hs : StoredOk k s) {q : Box} (hq : Ranked k q)
    (h : RootLeaf s ∨ LeavesStay C.mn q s) :
    ∃ s', removeBox C fuel s q = .ok s' ∧ ∀ p : Point, p.length = k → 0 < k →
      (s'.containsPoint p = true ↔ s.containsPoint p = true ∧ ¬ InB p q) := by
  obtain ⟨s', hs'⟩ := removeBox_total (fuel := fuel) hC hook hs hq h
  refine ⟨s', hs', fun p hp hk => ?_⟩
  have h1 := (removeBox_spec hC.sound (hookOk_of_eq hook k) hq hs hs').1
  rw [containsPoint_iff h1.setOk hp hk, containsPoint_iff hs.setOk hp hk]
  exact removeBox_exact hC hook hs hq (h.imp_left fun h => RootLeaf.oneLeaf h q) hs' p

theorem allNodes_of_leaves {P : Node → Prop} : ∀ {t : Node}, (∀ m ∈ t.leafNodes, P m) →
    AllNodes (fun m => m.ch = [] → P m) t := by
  intro t
  induction t using Node.ind with
  | h t ih =>
    intro h
    by_cases hc : t.ch = []
    · refine .mk (fun _ => h t (by rw [Node.leafNodes_leaf hc]; simp)) fun c hc' => ?_
      rw [hc] at hc'
      cases hc'
    · refine .mk (fun h => absurd h hc) fun c hc' => ih c hc' fun m hm => h m ?_
      rw [Node.leafNodes_inner hc, Node.leafNodesL_eq, List.mem_flatMap]
      exact ⟨c, hc', hm⟩

/-- Used in the example: an interval beyond 1010. -/
def beyond : Box → Bool
  | [r] => decide (r.b < r.e) && decide (1010 ≤ r.b)
  | _ => false

theorem beyond_spec {o : Box} (h : beyond o = true) : ∃ p, InB p o ∧ ¬ InB p [⟨1000, 1010⟩] := by
  match o, h with
  | [r], h =>
    simp only [beyond, Bool.and_eq_true, decide_eq_true_eq] at h
    refine ⟨[r.b], .cons ⟨le_refl _, h.1⟩ .nil, fun hp => ?_⟩
    rw [Box.inB_cons_cons] at hp
    have := hp.1.2
    simp only at this
    omega

/-- The hypotheses hold of the set of `C18_points_left_false`, which has two leaves, and of a box that
contains five of its points, all of them in the second leaf. -/
example : ∃ s, runUpdates cfg 100 IndexSet.empty twoLeaves = .ok s ∧ ¬ RootLeaf s ∧
    LeavesStay cfg.mn [⟨1000, 1010⟩] s := by
  have he : (match runUpdates cfg 100 IndexSet.empty twoLeaves with
      | .ok s => (match s.root with
        | some t => t.ch.length == 2 && t.leafNodes.all fun m => (match m.bd with
          | [r] => decide (r.e ≤ 1000) || decide (cfg.mn ≤ (m.obs.filter beyond).length)
          | _ => false)
        | none => false)
      | _ => false) = true := by decide +kernel
  split at he
  · rename_i s hs
    split at he
    · rename_i t ht
      rw [Bool.and_eq_true, List.all_eq_true, beq_iff_eq] at he
      refine ⟨s, hs, fun h => ?_, fun t' ht' => ?_⟩
      · rw [h t ht] at he
        exact absurd he.1 (by decide)
      · rw [ht, Option.some.injEq] at ht'
        subst ht'
        refine allNodes_of_leaves fun m hm => ?_
        have := he.2 m hm
        split at this
        · rename_i r hbd
          rw [Bool.or_eq_true, decide_eq_true_iff, decide_eq_true_iff] at this
          rw [hbd]
          rintro ⟨p, hp, hq⟩
          rcases this with h | h
          · rw [Box.inB_cons] at hp hq
            obtain ⟨x, xs, rfl, ⟨-, h1⟩, -⟩ := hp
            obtain ⟨y, ys, he', ⟨h2, -⟩, -⟩ := hq
            simp only [List.cons.injEq] at he' h2
            omega
          · exact ⟨_, List.filter_sublist, h, fun o ho => beyond_spec (List.mem_filter.1 ho).2⟩
        · cases this
    · cases he
  · cases he

/-- **C18**, exactness: if the box overlaps the boundary of one leaf only, and there is no undefined
behaviour, exactly the points of the box are removed. -/
theorem C18_one_leaf_partial {C : Cfg} {k fuel : Nat} (hC : AnyChoice C)
    (hook : C.hook = insertionHook) {s s' : IndexSet} (hs : StoredOk k s) {q : Box} (hq : Ranked k q)
    (h : OneLeaf q s) (hr : removeBox C fuel s q = .ok s') (p : Point) (hp : p.length = k)
    (hk : 0 < k) : s'.containsPoint p = true ↔ s.containsPoint p = true ∧ ¬ InB p q := by
  have h1 := (removeBox_spec hC.sound (hookOk_of_eq hook k) hq hs hr).1
  rw [containsPoint_iff h1.setOk hp hk, containsPoint_iff hs.setOk hp hk]
  exact removeBox_exact hC hook hs hq (.inl h) hr p

/-- A box that overlaps one leaf only of the set with two leaves. -/
example : ∃ s s', runUpdates cfg 100 IndexSet.empty twoLeaves = .ok s ∧
    OneLeaf [⟨1000, 1100⟩] s ∧ removeBox cfg 100 s [⟨1000, 1100⟩] = .ok s' := by
  have he : (match runUpdates cfg 100 IndexSet.empty twoLeaves with
      | .ok s => (match s.root, removeBox cfg 100 s [⟨1000, 1100⟩] with
        | some t, .ok _ => (match t.leafNodes with
          | [m, n] => (match m.bd with
            | [r] => decide (r.e ≤ 1000)
            | _ => false)
          | _ => false)
        | _, _ => false)
      | _ => false) = true := by decide +kernel
  split at he
  · rename_i s hs
    split at he
    · rename_i t s' ht hs'
      split at he
      · rename_i m n hl
        split at he
        · rename_i r hr
          refine ⟨s, s', hs, fun t' ht' => ⟨n.id, ?_⟩, hs'⟩
          rw [ht, Option.some.injEq] at ht'
          subst ht'
          refine allNodes_of_leaves fun x hx => ?_
          rw [hl] at hx
          simp only [List.mem_cons, List.not_mem_nil, or_false] at hx
          rintro ⟨p, hp, hq⟩
          rcases hx with rfl | rfl
          · rw [hr] at hp
            rw [Box.inB_cons] at hp hq
            obtain ⟨x, xs, rfl, ⟨-, h1⟩, -⟩ := hp
            obtain ⟨y, ys, he', ⟨h2, -⟩, -⟩ := hq
            simp only [List.cons.injEq] at he' h2
            rw [decide_eq_true_iff] at he
            omega
          · rfl
        · cases he
      · cases he
    · cases he
  · cases he

theorem removeBoxes_exact {C : Cfg} {k fuel : Nat} (hC : AnyChoice C) (hook : C.hook = insertionHook) :
    ∀ {bs : List Box} {s : IndexSet}, StoredOk k s → (∀ b ∈ bs, Ranked k b) →
    (∀ pre b s', (∀ x ∈ b :: pre, x ∈ bs) → removeBoxes C fuel s pre = .ok s' →
      RootLeaf s' ∨ LeavesStay C.mn b s') →
    ∃ s', removeBoxes C fuel s bs = .ok s' ∧ StoredOk k s' ∧ ∀ p, Has s' p ↔ Has s p ∧ ¬ InL p bs
  | [], s, hs, _, _ => ⟨s, rfl, hs, fun p => by simp [InL]⟩
  | b :: bs, s, hs, hb, h => by
    have h0 := h [] b s (by simp) rfl
    obtain ⟨s1, h1⟩ := removeBox_total (fuel := fuel) hC hook hs (hb b (by simp)) h0
    have hs1 := (removeBox_spec hC.sound (hookOk_of_eq hook k) (hb b (by simp)) hs h1).1
    have he := removeBox_exact hC hook hs (hb b (by simp))
      (h0.imp_left fun h => RootLeaf.oneLeaf h b) h1
    obtain ⟨s2, i1, i2, i3⟩ := removeBoxes_exact hC hook (fuel := fuel) (bs := bs) hs1
      (fun c hc => hb c (by simp [hc])) (fun pre c s' hx hr => by
        refine h (b :: pre) c s' (fun x hx' => ?_) ?_
        · have := hx x
          simp only [List.mem_cons] at this hx' ⊢
          by_cases hxb : x = b
          · exact .inl hxb
          · exact .inr (this (by tauto))
        · rw [removeBoxes, except_bind_of_ok h1]
          exact hr)
    refine ⟨s2, ?_, i2, fun p => ?_⟩
    · rw [removeBoxes, except_bind_of_ok h1]
      exact i1
    · rw [i3, he, inL_cons]
      tauto

/-- **C18**, exactness of the removal of a set: if, whichever of its boxes have been removed already,
the box to be removed next leaves enough objects in the leaves (in the sense of
`C18_exact_partial`), the removal has a result and removes exactly the points of the set. -/
theorem C18_set_exact_partial {C : Cfg} {k fuel : Nat} (hC : AnyChoice C)
    (hook : C.hook = insertionHook) {s t : IndexSet} (hs : StoredOk k s) (ht : SetOk k t)
    (h : ∀ pre b s', (∀ x ∈ b :: pre, x ∈ t.ranges) → removeBoxes C fuel s pre = .ok s' →
      RootLeaf s' ∨ LeavesStay C.mn b s') :
    ∃ s', removeSet C fuel s t = .ok s' ∧ ∀ p : Point, p.length = k → 0 < k →
      (s'.containsPoint p = true ↔ s.containsPoint p = true ∧ t.containsPoint p = false) := by
  have key : ∃ s', removeSet C fuel s t = .ok s' ∧ StoredOk k s' ∧
      ∀ p, Has s' p ↔ Has s p ∧ ¬ Has t p := by
    unfold removeSet
    split
    · rename_i l r hl hr
      have hb := fun b => pairs_ranked hs.setOk ht hl hr (b := b)
      obtain ⟨s', h1, h2, h3⟩ := removeBoxes_exact hC hook (fuel := fuel)
        (bs := (visitPairs l r).map Prod.snd) hs
        (fun b hb' => ranges_ranked ht b ((hb b).1 hb').1)
        (fun pre b s' hx => h pre b s' fun x hx' => ((hb x).1 (hx x hx')).1)
      refine ⟨s', h1, h2, fun p => ?_⟩
      rw [h3]
      refine and_congr_right fun hsp => not_congr ⟨?_, ?_⟩
      · rintro ⟨b, hb', hp⟩
        exact ⟨b, ((hb b).1 hb').1, hp⟩
      · rintro ⟨b, hb', hp⟩
        exact ⟨b, (hb b).2 ⟨hb', p, hp, hsp⟩, hp⟩
    · rename_i hn
      refine ⟨s, rfl, hs, fun p => ?_⟩
      have : ¬ (Has s p ∧ Has t p) := by
        rintro ⟨⟨a, ha, -⟩, ⟨b, hb, -⟩⟩
        cases hl : s.root with
        | none => rw [ranges_none hl] at ha; cases ha
        | some l =>
          cases hr : t.root with
          | none => rw [ranges_none hr] at hb; cases hb
          | some r => exact hn l r hl hr
      tauto
  obtain ⟨s', h1, h2, h3⟩ := key
  refine ⟨s', h1, fun p hp hk => ?_⟩
  rw [← Bool.not_eq_true, containsPoint_iff h2.setOk hp hk, containsPoint_iff hs.setOk hp hk,
    containsPoint_iff ht hp hk]
  exact h3 p

/-- Used in the example: a set stored as one box. -/
def single (b : Box) : IndexSet := ⟨some (.mk 0 b [] [b]), true, b.length, 1⟩

/-- The hypotheses hold of small sets: {0, …, 9} and {3, 4}. -/
example : StoredOk 1 (single [⟨0, 10⟩]) ∧ SetOk 1 (single [⟨3, 5⟩]) ∧
    ∀ pre b s', (∀ x ∈ b :: pre, x ∈ (single [⟨3, 5⟩]).ranges) →
      removeBoxes cfg 100 (single [⟨0, 10⟩]) pre = .ok s' →
      RootLeaf s' ∨ LeavesStay cfg.mn b s' := by
  have hst : ∀ a b : Int, a < b → StoredOk 1 (single [⟨a, b⟩]) := by
    intro a b hab
    have h : insertObject cfg 0 IndexSet.empty [⟨a, b⟩] = .ok (single [⟨a, b⟩]) := by
      unfold insertObject
      simp [IndexSet.empty, RTree.insert, single, cfg, insertionHook_single]
      rfl
    exact (insertObject_spec cfg_anyChoice.sound (cfg_hookOk 1) storedOk_empty
      (by simp [Ranked, Box.Valid, Range.Valid, hab]) h).1
  refine ⟨hst 0 10 (by decide), (hst 3 5 (by decide)).setOk, fun pre b s' hx h => .inl ?_⟩
  have hpre : ∀ (pre : List Box) (s : IndexSet), (∀ x ∈ pre, x = [⟨3, 5⟩]) →
      (s = single [⟨0, 10⟩] ∨ s = ⟨some (.mk 0 [⟨0, 10⟩] [] [[⟨0, 3⟩], [⟨5, 10⟩]]), true, 1, 1⟩) →
      removeBoxes cfg 100 s pre = .ok s' → RootLeaf s' := by
    intro pre
    induction pre with
    | nil =>
      rintro s - hs h
      simp only [removeBoxes, Except.ok.injEq] at h
      subst h
      rcases hs with rfl | rfl <;> (rintro t ⟨⟩; rfl)
    | cons x pre ih =>
      intro s hx hs h
      rw [removeBoxes, hx x (by simp), except_bind_ok] at h
      obtain ⟨s1, h1, h2⟩ := h
      refine ih s1 (fun y hy => hx y (by simp [hy])) (.inr ?_) h2
      rcases hs with rfl | rfl
      · have : removeBox cfg 100 (single [⟨0, 10⟩]) [⟨3, 5⟩] =
          .ok ⟨some (.mk 0 [⟨0, 10⟩] [] [[⟨0, 3⟩], [⟨5, 10⟩]]), true, 1, 1⟩ := by rfl
        rw [this, Except.ok.injEq] at h1
        exact h1.symm
      · have : removeBox cfg 100 ⟨some (.mk 0 [⟨0, 10⟩] [] [[⟨0, 3⟩], [⟨5, 10⟩]]), true, 1, 1⟩
          [⟨3, 5⟩] = .ok ⟨some (.mk 0 [⟨0, 10⟩] [] [[⟨0, 3⟩], [⟨5, 10⟩]]), true, 1, 1⟩ := by rfl
        rw [this, Except.ok.injEq] at h1
        exact h1.symm
  refine hpre pre _ (fun x hx' => ?_) (.inl rfl) h
  have := hx x (by simp [hx'])
  rw [ranges_some rfl, Node.objects_leaf rfl] at this
  simpa [Node.obs_mk] using this

end Marco.Props
