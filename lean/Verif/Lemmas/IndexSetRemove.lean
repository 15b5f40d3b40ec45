import Verif.Lemmas.TreeLeaves
import Verif.Lemmas.IndexSetUpdate

/-! Helper lemmas about the removal of points from an index set. -/

namespace Marco
open Spec

namespace Node

theorem leafNodes_ch : ∀ {n m : Node}, m ∈ n.leafNodes → m.ch = [] := by
  intro n
  induction n using Node.ind with
  | h n ih =>
    intro m hm
    by_cases h : n.ch = []
    · rw [leafNodes_leaf h, List.mem_singleton] at hm
      rw [hm, h]
    · rw [leafNodes_inner h, leafNodesL_eq, List.mem_flatMap] at hm
      obtain ⟨c, hc, hm⟩ := hm
      exact ih c hc hm

theorem leafNodes_all {P : Node → Prop} : ∀ {n m : Node}, AllNodes P n → m ∈ n.leafNodes → P m := by
  intro n
  induction n using Node.ind with
  | h n ih =>
    intro m hn hm
    by_cases h : n.ch = []
    · rw [leafNodes_leaf h, List.mem_singleton] at hm
      rw [hm]
      exact hn.self
    · rw [leafNodes_inner h, leafNodesL_eq, List.mem_flatMap] at hm
      obtain ⟨c, hc, hm⟩ := hm
      exact ih c hc (hn.child hc) hm

end Node

namespace IndexSet
open RTree

variable {k : Nat} {lab : Nat → Nat}

theorem leaf_label {E : Nat → Prop} : ∀ {h : Nat} {n m : Node}, Wf lab E k h n → m ∈ n.leafNodes →
    lab m.id = 0
  | 0, n, m, hw, hm => by
    rw [Node.leafNodes_leaf hw.2.1, List.mem_singleton] at hm
    rw [hm]
    exact hw.top.lab
  | h + 1, n, m, hw, hm => by
    rw [Node.leafNodes_inner hw.2.2.1, Node.leafNodesL_eq, List.mem_flatMap] at hm
    obtain ⟨c, hc, hm⟩ := hm
    exact leaf_label (hw.2.2.2 c hc) hm

/-! ### The objects left in a leaf -/

theorem mem_differences {q : Box} {obs : List Box} {d : Box} : d ∈ differences q obs ↔
    ∃ o ∈ obs, if o.overlaps q = true then d ∈ o.subtract q else d = o := by
  unfold differences
  rw [List.mem_flatMap]
  refine exists_congr fun o => and_congr_right fun _ => ?_
  split <;> simp

theorem differences_ranked {q : Box} {obs : List Box} (hq : Ranked k q)
    (ho : ∀ o ∈ obs, Ranked k o) : ∀ d ∈ differences q obs, Ranked k d := by
  intro d hd
  obtain ⟨o, hm, hd⟩ := mem_differences.1 hd
  split at hd
  · exact subtract_ranked (ho o hm) hq d hd
  · rw [hd]; exact ho o hm

theorem inL_differences {q : Box} {obs : List Box} (hq : Ranked k q)
    (ho : ∀ o ∈ obs, Ranked k o) (p : Point) :
    InL p (differences q obs) ↔ InL p obs ∧ ¬ InB p q := by
  unfold differences
  rw [inL_flatMap]
  constructor
  · rintro ⟨o, hm, hp⟩
    split at hp
    · rw [inL_subtract (ho o hm) hq] at hp
      exact ⟨⟨o, hm, hp.1⟩, hp.2⟩
    · rename_i hov
      simp only [InL, List.mem_singleton, exists_eq_left] at hp
      refine ⟨⟨o, hm, hp⟩, fun hpq => hov ?_⟩
      exact (overlaps_iff' (ho o hm) hq).2 ⟨p, hp, hpq⟩
  · rintro ⟨⟨o, hm, hp⟩, hpq⟩
    refine ⟨o, hm, ?_⟩
    split
    · exact (inL_subtract (ho o hm) hq p).2 ⟨hp, hpq⟩
    · exact ⟨o, by simp, hp⟩

theorem differences_disj {q : Box} {obs : List Box} (hq : Ranked k q)
    (ho : ∀ o ∈ obs, Ranked k o) (hd : DisjL obs) : DisjL (differences q obs) := by
  refine disjL_flatMap hd ?_ ?_
  · intro o hm
    split
    · exact disjL_subtract (ho o hm) hq
    · simp [DisjL]
  · intro o hm p hp
    split at hp
    · exact ((inL_subtract (ho o hm) hq p).1 hp).1
    · simpa [InL] using hp

theorem differences_self {q : Box} {obs : List Box} (h : ¬ (obs.any fun o => o.overlaps q) = true) :
    differences q obs = obs := by
  simp only [List.any_eq_true, not_exists, not_and] at h
  unfold differences
  induction obs with
  | nil => rfl
  | cons o os ih =>
    rw [List.flatMap_cons, if_neg (h o (by simp)), ih fun x hx => h x (by simp [hx])]
    rfl

/-- Every object with a point outside the box leaves a piece. -/
theorem differences_length {q : Box} {obs l : List Box} (hq : Ranked k q)
    (ho : ∀ o ∈ obs, Ranked k o) (hl : l.Sublist obs)
    (hp : ∀ o ∈ l, ∃ p, InB p o ∧ ¬ InB p q) : l.length ≤ (differences q obs).length := by
  unfold differences
  induction hl with
  | slnil => simp
  | cons o _ ih =>
    have := ih (fun x hx => ho x (by simp [hx])) hp
    rw [List.flatMap_cons, List.length_append]
    omega
  | cons_cons o _ ih =>
    have := ih (fun x hx => ho x (by simp [hx])) (fun x hx => hp x (by simp [hx]))
    rw [List.flatMap_cons, List.length_append, List.length_cons]
    have h2 : 1 ≤ (if o.overlaps q = true then o.subtract q else [o]).length := by
      obtain ⟨p, hp1, hp2⟩ := hp o (by simp)
      split
      · obtain ⟨d, hd, -⟩ := (inL_subtract (ho o (by simp)) hq p).2 ⟨hp1, hp2⟩
        exact List.length_pos_of_mem hd
      · simp
    omega

/-! ### One leaf -/

/-- The tree of a set during a removal; `lab` are the heights of the nodes. -/
def Labelled (lab : Nat → Nat) (k : Nat) (s : IndexSet) : Prop :=
  ∀ t, s.root = some t → ∃ H, TreeOk lab noE k H s.next t

/-- What a removal never does: removing other points or adding points. -/
structure Within (q : Box) (s s' : IndexSet) : Prop where
  keep : ∀ p, Has s p → ¬ InB p q → Has s' p
  only : ∀ p, Has s' p → Has s p
  disj : DisjL s.ranges → DisjL s'.ranges

theorem Within.refl (q : Box) (s : IndexSet) : Within q s s := ⟨fun _ h _ => h, fun _ h => h, id⟩

theorem Within.trans {q : Box} {s s1 s2 : IndexSet} (h1 : Within q s s1) (h2 : Within q s1 s2) :
    Within q s s2 :=
  ⟨fun p hp hq => h2.keep p (h1.keep p hp hq) hq, fun p hp => h1.only p (h2.only p hp),
    fun h => h2.disj (h1.disj h)⟩

/-- The situation when a leaf is about to be adjusted. -/
theorem leaf_zip {q : Box} (hq : Ranked k q) {s : IndexSet} {t : Node} {j : Nat} {ctx : Ctx} {n : Node}
    (hs : Labelled lab k s) (ht : s.root = some t) (hj : lab j = 0) (hl : locate j t = some (ctx, n)) :
    Zip lab noE k 0 s.next ctx n ∧ Wf lab noE k 0 n ∧ n.id = j ∧ plug ctx n = t ∧
      Zip lab noE k 0 s.next ctx (.mk n.id n.bd n.ch (differences q n.obs)) ∧
      Pre lab noE k 0 (.mk n.id n.bd n.ch (differences q n.obs)) := by
  obtain ⟨H, hok⟩ := hs t ht
  obtain ⟨h, z, w, hid, hpl⟩ := hok.zip hl
  have : h = 0 := by rw [← w.top.lab, hid, hj]
  subst this
  refine ⟨z, w, hid, hpl, ?_, ?_⟩
  · exact z.replace rfl (by simp [Node.ids_eq, Node.id_mk, Node.ch_mk])
  · exact ⟨w.top.lab, w.top.rank, w.2.1, differences_ranked hq w.2.2.2⟩

theorem removeFromLeaf_spec {C : Cfg} (hC : C.Sound) (hk : C.HookOk k) {fuel : Nat} {q : Box}
    (hq : Ranked k q) {s s' : IndexSet} {j : Nat} (hs : Labelled lab k s) (hj : lab j = 0)
    (h : removeFromLeaf C fuel q s j = .ok s') :
    (∃ lab', (∀ i < s.next, lab' i = lab i) ∧ s.next ≤ s'.next ∧ Labelled lab' k s') ∧
      s'.init = s.init ∧ s'.rank = s.rank ∧ Within q s s' := by
  unfold removeFromLeaf at h
  rw [except_bind_ok] at h
  obtain ⟨t, ht, h⟩ := h
  rw [orUb_ok] at ht
  rw [except_bind_ok] at h
  obtain ⟨⟨ctx, n⟩, hl, h⟩ := h
  rw [deref_ok] at hl
  obtain ⟨z, w, hid, hpl, z', p'⟩ := leaf_zip hq hs ht hj hl
  simp only at h
  split at h
  · rw [except_bind_ok] at h
    obtain ⟨⟨root, next⟩, ha, h⟩ := h
    simp only [Except.ok.injEq] at h
    have hso := adjustTree_spec hC hk z' p' ha
    have hobj : (Node.mk n.id n.bd n.ch (differences q n.obs)).objects = differences q n.obs :=
      Node.objects_leaf w.2.1
    rw [hobj] at hso
    have hperm : s.ranges.Perm (n.obs ++ ctxObjs ctx) := by
      rw [ranges_some ht, ← hpl, ← Node.objects_leaf w.2.1]
      exact plug_objects ctx n
    have hper : ∀ p, Has s p ↔ InL p n.obs ∨ InL p (ctxObjs ctx) := by
      intro p
      unfold Has InL
      simp only [hperm.mem_iff, List.mem_append]
      constructor
      · rintro ⟨b, hb | hb, hp⟩
        · exact .inl ⟨b, hb, hp⟩
        · exact .inr ⟨b, hb, hp⟩
      · rintro (⟨b, hb, hp⟩ | ⟨b, hb, hp⟩)
        · exact ⟨b, .inl hb, hp⟩
        · exact ⟨b, .inr hb, hp⟩
    have hmem : ∀ p, Has s' p ↔ (InL p n.obs ∧ ¬ InB p q) ∨ InL p (ctxObjs ctx) := by
      intro p
      rw [← inL_differences hq w.2.2.2, ← inL_append]
      cases root with
      | none =>
        rw [hso.1, ← h]
        simp [Has, ranges]
      | some t' =>
        obtain ⟨lab', H', -, -, -, a4⟩ := hso
        rw [← a4.mem p, ← h]
        simp [Has, ranges]
    have hw : Within q s s' := by
      refine ⟨?_, ?_, ?_⟩
      · intro p hp hpq
        rw [hmem]
        rcases (hper p).1 hp with hp | hp
        · exact .inl ⟨hp, hpq⟩
        · exact .inr hp
      · intro p hp
        rw [hper]
        rcases (hmem p).1 hp with hp | hp
        · exact .inl hp.1
        · exact .inr hp
      · intro hd
        have hd1 : DisjL (n.obs ++ ctxObjs ctx) :=
          hperm.pairwise hd (fun {a b} hab p hp => hab p ⟨hp.2, hp.1⟩)
        rw [disjL_append] at hd1
        have hd2 : DisjL (differences q n.obs ++ ctxObjs ctx) := by
          rw [disjL_append]
          refine ⟨differences_disj hq w.2.2.2 hd1.1, hd1.2.1, ?_⟩
          rw [disj_cross_iff]
          intro p hp
          exact (disj_cross_iff.1 hd1.2.2) p ((inL_differences hq w.2.2.2 p).1 hp).1
        cases root with
        | none => rw [← h]; simp [ranges, DisjL]
        | some t' =>
          obtain ⟨lab', H', -, -, -, a4⟩ := hso
          rw [← h]
          exact a4.disj hd2
    refine ⟨?_, by rw [← h], by rw [← h], hw⟩
    cases root with
    | none =>
      refine ⟨lab, fun _ _ => rfl, ?_, ?_⟩
      · rw [← h]; exact hso.2.ge
      · rw [← h]
        intro t ht
        simp at ht
    | some t' =>
      obtain ⟨lab', H', a1, a2, a3, a4⟩ := hso
      refine ⟨lab', a1, ?_, ?_⟩
      · rw [← h]; exact a2
      · rw [← h]
        intro t ht
        simp only [Option.some.injEq] at ht
        subst ht
        exact ⟨H', a3⟩
  · rename_i hov
    simp only [Except.ok.injEq] at h
    have he : s' = s := by
      rw [differences_self hov] at h
      have : Node.mk n.id n.bd n.ch n.obs = n := n.eta.symm
      rw [this, hpl, ← ht] at h
      exact h.symm
    subst he
    exact ⟨⟨lab, fun _ _ => rfl, le_rfl, hs⟩, rfl, rfl, .refl _ _⟩

/-! ### All the leaves -/

theorem removeFromLeaves_spec {C : Cfg} (hC : C.Sound) (hk : C.HookOk k) {fuel : Nat} {q : Box}
    (hq : Ranked k q) : ∀ {js : List Nat} {lab : Nat → Nat} {s s' : IndexSet}, Labelled lab k s →
    (∀ j ∈ js, lab j = 0 ∧ j < s.next) → removeFromLeaves C fuel q s js = .ok s' →
    (∃ lab', Labelled lab' k s') ∧ s'.init = s.init ∧ s'.rank = s.rank ∧ Within q s s'
  | [], lab, s, s', hs, _, h => by
    simp only [removeFromLeaves, Except.ok.injEq] at h
    subst h
    exact ⟨⟨lab, hs⟩, rfl, rfl, .refl _ _⟩
  | j :: js, lab, s, s', hs, hj, h => by
    rw [removeFromLeaves, except_bind_ok] at h
    obtain ⟨s1, h1, h2⟩ := h
    obtain ⟨⟨lab1, a1, a2, a3⟩, b1, b2, b3⟩ := removeFromLeaf_spec hC hk hq hs (hj j (by simp)).1 h1
    obtain ⟨c1, c2, c3, c4⟩ := removeFromLeaves_spec hC hk hq a3 (fun i hi => by
      obtain ⟨h3, h4⟩ := hj i (by simp [hi])
      exact ⟨(a1 i h4).trans h3, by omega⟩) h2
    exact ⟨c1, c2.trans b1, c3.trans b2, b3.trans c4⟩

/-- The leaves that are visited. -/
theorem visited_eq (q : Box) (t : Node) : overlappingLeaves q t.weight [t] =
    (t.leafNodes.filter fun m => m.bd.overlaps q).map Node.id := by
  rw [overlappingLeaves_eq q _ _ (by simp [Node.weightL])]
  simp [Node.leafNodesL]

theorem removeBox_spec {C : Cfg} (hC : C.Sound) (hk : C.HookOk k) {fuel : Nat} {q : Box}
    (hq : Ranked k q) {s s' : IndexSet} (hs : StoredOk k s) (h : removeBox C fuel s q = .ok s') :
    StoredOk k s' ∧ Within q s s' := by
  unfold removeBox at h
  cases hr : s.root with
  | none =>
    simp only [hr, Except.ok.injEq] at h
    subst h
    exact ⟨hs, .refl _ _⟩
  | some t =>
    simp only [hr] at h
    obtain ⟨lab, H, hok⟩ := hs.treeOk hr
    have hlab : Labelled lab k s := by
      intro t' ht'
      rw [hr, Option.some.injEq] at ht'
      subst ht'
      exact ⟨H, hok⟩
    have hi : s.init = true := hs.init (by simp [hr])
    obtain ⟨⟨lab', a⟩, b1, b2, b3⟩ := removeFromLeaves_spec hC hk hq hlab (fun j hj => by
      rw [visited_eq, List.mem_map] at hj
      obtain ⟨m, hm, rfl⟩ := hj
      have hm := (List.mem_filter.1 hm).1
      refine ⟨leaf_label hok.wf hm, hok.lt _ ?_⟩
      exact (Node.leafNodes_sublist t).subset (List.mem_map_of_mem hm)) h
    refine ⟨?_, b3⟩
    have hi' : s'.init = true := b1.trans hi
    have hrk : s'.rank = k := b2.trans (hs.rank hi)
    cases hr' : s'.root with
    | none => exact storedOk_none hr' fun _ => hrk
    | some t' =>
      obtain ⟨H', hok'⟩ := a t' hr'
      have := storedOk_of_treeOk hok'
      have he : s' = ⟨some t', true, k, s'.next⟩ := by
        cases s'
        simp_all
      rw [he]
      exact this

/-! ### Exactness -/

/-- The leaf with the given address keeps enough objects. -/
def LeafStays (mn : Nat) (q : Box) (t : Node) (j : Nat) : Prop :=
  ∃ obs, (j, obs) ∈ t.leaves ∧ mn ≤ (differences q obs).length

theorem leaf_unique {t : Node} (h : t.ids.Nodup) {j : Nat} {a b : List Box} (ha : (j, a) ∈ t.leaves)
    (hb : (j, b) ∈ t.leaves) : a = b := by
  have := List.inj_on_of_nodup_map (Node.leaves_nodup h) ha hb rfl
  simpa using this

/-- Removing from a leaf that keeps enough objects leaves the other leaves as they are. -/
theorem removeFromLeaf_stays {C : Cfg} (hC : C.Sound) (hmn : 1 ≤ C.mn) {fuel : Nat} {q : Box}
    (hq : Ranked k q) {s s' : IndexSet} {t : Node} {j : Nat} (hs : Labelled lab k s)
    (ht : s.root = some t) (hj : lab j = 0) (hst : LeafStays C.mn q t j)
    (h : removeFromLeaf C fuel q s j = .ok s') :
    ∃ t', s'.root = some t' ∧ (∀ x ∈ t.leaves, x.1 ≠ j → x ∈ t'.leaves) ∧
      ∀ x ∈ t'.leaves, (x.1 ≠ j ∧ x ∈ t.leaves) ∨ ∀ o ∈ x.2, Disj o q := by
  unfold removeFromLeaf at h
  rw [except_bind_ok] at h
  obtain ⟨t0, ht0, h⟩ := h
  rw [orUb_ok, ht, Option.some.injEq] at ht0
  subst ht0
  rw [except_bind_ok] at h
  obtain ⟨⟨ctx, n⟩, hl, h⟩ := h
  rw [deref_ok] at hl
  obtain ⟨z, w, hid, hpl, z', p'⟩ := leaf_zip hq hs ht hj hl
  have hnl : n.leaves = [(j, n.obs)] := by rw [Node.leaves_leaf w.2.1, hid]
  have hperm : t.leaves.Perm ((j, n.obs) :: ctxLeaves ctx) := by
    have := plug_leaves ctx n
    rwa [hpl, hnl] at this
  have hnd : t.ids.Nodup := by
    obtain ⟨H, hok⟩ := hs t ht
    exact hok.nodup
  have hout : ∀ x ∈ ctxLeaves ctx, x.1 ≠ j := by
    intro x hx he
    have h1 : (t.leaves.map Prod.fst).Nodup := Node.leaves_nodup hnd
    rw [(hperm.map Prod.fst).nodup_iff, List.map_cons, List.nodup_cons] at h1
    exact h1.1 (List.mem_map.2 ⟨x, hx, he⟩)
  have hdiff : ∀ o ∈ differences q n.obs, Disj o q := by
    intro o ho p hp
    exact ((inL_differences hq w.2.2.2 p).1 ⟨o, ho, hp.1⟩).2 hp.2
  have hmem : ∀ x ∈ t.leaves, x.1 ≠ j → x ∈ ctxLeaves ctx := by
    intro x hx hne
    rcases List.mem_cons.1 (hperm.mem_iff.1 hx) with rfl | hx
    · exact absurd rfl hne
    · exact hx
  simp only at h
  split at h
  · rw [except_bind_ok] at h
    obtain ⟨⟨root, next⟩, ha, h⟩ := h
    simp only [Except.ok.injEq] at h
    obtain ⟨obs, hobs, hlen⟩ := hst
    have : obs = n.obs := leaf_unique hnd hobs (hperm.mem_iff.2 (by simp))
    subst this
    have hfo : (Node.mk n.id n.bd n.ch (differences q n.obs)).fanOut = (differences q n.obs).length := by
      simp [Node.fanOut, Node.isLeaf, Node.ch_mk, Node.obs_mk, w.2.1]
    obtain ⟨t', G, rfl, g1, g2⟩ := adjustTree_leaves hC (by rw [hfo]; exact hlen)
      (by rw [hfo]; omega) ha
    rw [Node.objects_leaf (by exact w.2.1)] at g2
    refine ⟨t', by rw [← h], ?_, ?_⟩
    · intro x hx hne
      exact g1.mem_iff.2 (by simp [hmem x hx hne])
    · intro x hx
      rcases List.mem_append.1 (g1.mem_iff.1 hx) with hx | hx
      · exact .inr fun o ho => hdiff o (g2 x hx o ho)
      · exact .inl ⟨hout x hx, hperm.mem_iff.2 (by simp [hx])⟩
  · rename_i hov
    simp only [Except.ok.injEq] at h
    rw [differences_self hov] at h hdiff
    have he : Node.mk n.id n.bd n.ch n.obs = n := n.eta.symm
    rw [he, hpl] at h
    refine ⟨t, by rw [← h], fun x hx _ => hx, fun x hx => ?_⟩
    rcases List.mem_cons.1 (hperm.mem_iff.1 hx) with rfl | hx'
    · exact .inr hdiff
    · exact .inl ⟨hout x hx', hx⟩

/-- Nothing of the box is left if all the leaves but the last one keep enough objects. -/
theorem removeFromLeaves_exact {C : Cfg} (hC : C.Sound) (hk : C.HookOk k) (hmn : 1 ≤ C.mn)
    {fuel : Nat} {q : Box} (hq : Ranked k q) : ∀ {js : List Nat} {lab : Nat → Nat} {s s' : IndexSet}
    {t : Node}, Labelled lab k s → s.root = some t → js.Nodup →
    (∀ j ∈ js, lab j = 0 ∧ j < s.next) →
    (∀ x ∈ t.leaves, x.1 ∈ js ∨ ∀ o ∈ x.2, Disj o q) →
    (∀ j ∈ js.dropLast, LeafStays C.mn q t j) → removeFromLeaves C fuel q s js = .ok s' →
    ∀ p, Has s' p → ¬ InB p q
  | [], lab, s, s', t, hs, ht, _, _, hx, _, h => by
    simp only [removeFromLeaves, Except.ok.injEq] at h
    subst h
    rintro p ⟨o, ho, hp⟩ hpq
    rw [ranges_some ht] at ho
    obtain ⟨x, hx', ho⟩ := (Node.mem_objects_leaves _ _).1 ho
    rcases hx x hx' with h | h
    · cases h
    · exact h o ho p ⟨hp, hpq⟩
  | [j], lab, s, s', t, hs, ht, _, hj, hx, _, h => by
    rw [removeFromLeaves, except_bind_ok] at h
    obtain ⟨s1, h, h2⟩ := h
    simp only [removeFromLeaves, Except.ok.injEq] at h2
    subst h2
    unfold removeFromLeaf at h
    rw [except_bind_ok] at h
    obtain ⟨t0, ht0, h⟩ := h
    rw [orUb_ok, ht, Option.some.injEq] at ht0
    subst ht0
    rw [except_bind_ok] at h
    obtain ⟨⟨ctx, n⟩, hl, h⟩ := h
    rw [deref_ok] at hl
    obtain ⟨z, w, hid, hpl, z', p'⟩ := leaf_zip hq hs ht (hj j (by simp)).1 hl
    have hnl : n.leaves = [(j, n.obs)] := by rw [Node.leaves_leaf w.2.1, hid]
    have hperm : t.leaves.Perm ((j, n.obs) :: ctxLeaves ctx) := by
      have := plug_leaves ctx n
      rwa [hpl, hnl] at this
    have hnd : t.ids.Nodup := by
      obtain ⟨H, hok⟩ := hs t ht
      exact hok.nodup
    have hctx : ∀ p, InL p (ctxObjs ctx) → ¬ InB p q := by
      rintro p ⟨o, ho, hp⟩ hpq
      have h1 : o ∈ ctxObjs ctx → ∃ x ∈ ctxLeaves ctx, o ∈ x.2 := by
        clear * -
        induction ctx with
        | nil => simp [ctxObjs]
        | cons f ctx ih =>
          simp only [ctxObjs, ctxLeaves, List.mem_append]
          rintro ((h | h) | h)
          · obtain ⟨c, hc, h⟩ := (Node.mem_objectsL _ _).1 h
            obtain ⟨m, hm, h⟩ := (Node.mem_objects_leafNodes _ _).1 h
            refine ⟨(m.id, m.obs), .inl (.inl ?_), h⟩
            rw [Node.leavesL, Node.leafNodesL_eq]
            exact List.mem_map.2 ⟨m, List.mem_flatMap.2 ⟨c, hc, hm⟩, rfl⟩
          · obtain ⟨c, hc, h⟩ := (Node.mem_objectsL _ _).1 h
            obtain ⟨m, hm, h⟩ := (Node.mem_objects_leafNodes _ _).1 h
            refine ⟨(m.id, m.obs), .inl (.inr ?_), h⟩
            rw [Node.leavesL, Node.leafNodesL_eq]
            exact List.mem_map.2 ⟨m, List.mem_flatMap.2 ⟨c, hc, hm⟩, rfl⟩
          · obtain ⟨x, hx, h⟩ := ih h
            exact ⟨x, .inr hx, h⟩
      obtain ⟨x, hxc, hxo⟩ := h1 ho
      rcases hx x (hperm.mem_iff.2 (by simp [hxc])) with h2 | h2
      · have h3 : (t.leaves.map Prod.fst).Nodup := Node.leaves_nodup hnd
        rw [(hperm.map Prod.fst).nodup_iff, List.map_cons, List.nodup_cons] at h3
        exact h3.1 (List.mem_map.2 ⟨x, hxc, by simpa using h2⟩)
      · exact h2 o hxo p ⟨hp, hpq⟩
    simp only at h
    split at h
    · rw [except_bind_ok] at h
      obtain ⟨⟨root, next⟩, ha, h⟩ := h
      simp only [Except.ok.injEq] at h
      have hso := adjustTree_spec hC hk z' p' ha
      have hobj : (Node.mk n.id n.bd n.ch (differences q n.obs)).objects = differences q n.obs :=
        Node.objects_leaf w.2.1
      rw [hobj] at hso
      intro p hp
      have : InL p (differences q n.obs ++ ctxObjs ctx) := by
        cases root with
        | none =>
          rw [← h] at hp
          simp [Has, ranges, InL] at hp
        | some t' =>
          obtain ⟨lab', H', -, -, -, a4⟩ := hso
          rw [← a4.mem p]
          rw [← h] at hp
          exact hp
      rw [inL_append] at this
      rcases this with h1 | h1
      · exact ((inL_differences hq w.2.2.2 p).1 h1).2
      · exact hctx p h1
    · rename_i hov
      simp only [Except.ok.injEq] at h
      rintro p ⟨o, ho, hp⟩
      rw [← h, ranges_some (n := plug ctx (.mk n.id n.bd n.ch (differences q n.obs))) rfl] at ho
      have h1 := (plug_objects ctx (.mk n.id n.bd n.ch (differences q n.obs))).mem_iff.1 ho
      rw [Node.objects_leaf (by exact w.2.1), List.mem_append] at h1
      rcases h1 with h1 | h1
      · exact ((inL_differences hq w.2.2.2 p).1 ⟨o, h1, hp⟩).2
      · exact hctx p ⟨o, h1, hp⟩
  | j :: i :: js, lab, s, s', t, hs, ht, hnd, hj, hx, hst, h => by
    rw [removeFromLeaves, except_bind_ok] at h
    obtain ⟨s1, h1, h2⟩ := h
    rw [List.nodup_cons] at hnd
    have hjs : LeafStays C.mn q t j := hst j (by simp)
    obtain ⟨⟨lab1, a1, a2, a3⟩, -, -, -⟩ := removeFromLeaf_spec hC hk hq hs (hj j (by simp)).1 h1
    obtain ⟨t1, b1, b2, b3⟩ := removeFromLeaf_stays hC hmn hq hs ht (hj j (by simp)).1 hjs h1
    refine removeFromLeaves_exact hC hk hmn hq a3 b1 hnd.2 ?_ ?_ ?_ h2
    · intro l hl
      obtain ⟨h3, h4⟩ := hj l (List.mem_cons_of_mem _ hl)
      exact ⟨(a1 l h4).trans h3, by omega⟩
    · intro x hx1
      rcases b3 x hx1 with ⟨h3, h4⟩ | h3
      · rcases hx x h4 with h5 | h5
        · rcases List.mem_cons.1 h5 with h5 | h5
          · exact absurd h5 h3
          · exact .inl h5
        · exact .inr h5
      · exact .inr h3
    · intro l hl
      obtain ⟨obs, h3, h4⟩ := hst l (by
        rw [List.dropLast_cons_of_ne_nil (by simp)]
        exact List.mem_cons_of_mem _ hl)
      refine ⟨obs, b2 _ h3 ?_, h4⟩
      rintro rfl
      exact hnd.1 (List.dropLast_subset _ hl)

/-- The removal has a result if all the leaves keep enough objects. -/
theorem removeFromLeaves_total {C : Cfg} (hA : AnyChoice C) (hC : C.Sound) (hk : C.HookOk k)
    {fuel : Nat} {q : Box} (hq : Ranked k q) : ∀ {js : List Nat} {lab : Nat → Nat} {s : IndexSet}
    {t : Node}, Labelled lab k s → s.root = some t → js.Nodup →
    (∀ j ∈ js, lab j = 0 ∧ j < s.next) → (∀ j ∈ js, LeafStays C.mn q t j) →
    ∃ s', removeFromLeaves C fuel q s js = .ok s'
  | [], lab, s, t, _, _, _, _, _ => ⟨s, rfl⟩
  | j :: js, lab, s, t, hs, ht, hnd, hj, hst => by
    rw [List.nodup_cons] at hnd
    obtain ⟨obs, h1, h2⟩ := hst j (by simp)
    obtain ⟨⟨ctx, n⟩, hl⟩ := locate_of_mem (Node.leaf_ids h1)
    obtain ⟨z, w, hid, hpl, z', p'⟩ := leaf_zip hq hs ht (hj j (by simp)).1 hl
    have hstep : ∃ s1, removeFromLeaf C fuel q s j = .ok s1 := by
      unfold removeFromLeaf
      rw [except_bind_of_ok (orUb_ok.2 ht), except_bind_of_ok (deref_ok.2 hl)]
      simp only
      split
      · have hnd' : t.ids.Nodup := by
          obtain ⟨H, hok⟩ := hs t ht
          exact hok.nodup
        have hperm : t.leaves.Perm ((j, n.obs) :: ctxLeaves ctx) := by
          have := plug_leaves ctx n
          rwa [hpl, Node.leaves_leaf w.2.1, hid] at this
        have : obs = n.obs := leaf_unique hnd' h1 (hperm.mem_iff.2 (by simp))
        subst this
        obtain ⟨⟨r, next⟩, hr⟩ := adjustTree_total hA (fuel := fuel) (next := s.next) (ctx := ctx)
          (n := .mk n.id n.bd n.ch (differences q n.obs))
          (by simpa [Node.fanOut, Node.isLeaf, Node.ch_mk, Node.obs_mk, w.2.1] using h2)
        rw [except_bind_of_ok hr]
        exact ⟨_, rfl⟩
      · exact ⟨_, rfl⟩
    obtain ⟨s1, h3⟩ := hstep
    obtain ⟨⟨lab1, a1, a2, a3⟩, -, -, -⟩ := removeFromLeaf_spec hC hk hq hs (hj j (by simp)).1 h3
    obtain ⟨t1, b1, b2, b3⟩ :=
      removeFromLeaf_stays hC hA.mn hq hs ht (hj j (by simp)).1 (hst j (by simp)) h3
    obtain ⟨s', h4⟩ := removeFromLeaves_total hA hC hk hq (fuel := fuel) a3 b1 hnd.2 (fun l hl => by
      obtain ⟨h3, h4⟩ := hj l (by simp [hl])
      exact ⟨(a1 l h4).trans h3, by omega⟩) (fun l hl => by
      obtain ⟨obs, h3, h4⟩ := hst l (by simp [hl])
      refine ⟨obs, b2 _ h3 fun he => hnd.1 ?_, h4⟩
      rw [← he]
      exact hl)
    rw [removeFromLeaves, except_bind_of_ok h3]
    exact ⟨s', h4⟩

end IndexSet
end Marco
