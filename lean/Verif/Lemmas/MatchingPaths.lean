import Verif.Lemmas.Matching
import Mathlib.Data.Finset.Lattice.Basic

/-!
# Lemmas about the candidate paths, their filter and their application
-/

namespace Marco
namespace Matching
open Mat Spec

/-- The flows of a candidate path. -/
def flowsOf : Step → List Flow → List Flow
  | .root _ _, flows => flows
  | .next prev k node _ flow, flows =>
    flowsOf prev (⟨prev.node, k, restrict node flow flows⟩ :: flows)

theorem scan_flows (view : Nat → VMap) : ∀ (p : Step) (flows : List Flow) (map : Mat) (nv : VMap)
    (j : Nat) (r : List Flow × VMap), scan view p flows map nv j = some r → r.1 = flowsOf p flows
  | .root _ _, flows, map, nv, j, r, h => by
    simp only [scan, Option.map_eq_some_iff] at h
    obtain ⟨a, _, rfl⟩ := h
    rfl
  | .next prev k node c flow, flows, map, nv, j, r, h => by
    simp only [scan, Option.bind_eq_some_iff] at h
    obtain ⟨a, _, h⟩ := h
    exact scan_flows view prev _ _ _ _ r h

/-- The flows that continue a path from the vertex `v`, starting from at most the indices `c`. -/
def Cont (G : Graph) (v : Vtx) (c : Finset Point) (flows : List Flow) : Prop :=
  match v with
  | .eq i => ∃ P, P ⊆ c ∧ Aug G i P flows
  | .var j => ∃ k b rest, flows = ⟨.var j, k, b⟩ :: rest ∧ (G.edge k).var = j ∧
      b ⊆ (G.edge k).matched ∧ OneToOne b ∧ b.varsOf ⊆ c ∧ Aug G (G.edge k).eq b.eqsOf rest

theorem oneToOne_mono {m m' : Mat} (h : OneToOne m) (hs : m' ⊆ m) : OneToOne m' :=
  fun p q p' q' h1 h2 => h p q p' q' (hs h1) (hs h2)

theorem eqsOf_filterRows {m : Mat} {s : Finset Point} (h : s ⊆ m.eqsOf) :
    (m.filterRows s).eqsOf = s := by
  ext x
  rw [mem_eqsOf]
  constructor
  · rintro ⟨q, hq⟩; exact (mem_filterRows.1 hq).2
  · intro hx
    obtain ⟨q, hq⟩ := mem_eqsOf.1 (h hx)
    exact ⟨q, mem_filterRows.2 ⟨hq, hx⟩⟩

theorem varsOf_filterColumns {m : Mat} {s : Finset Point} (h : s ⊆ m.varsOf) :
    (m.filterColumns s).varsOf = s := by
  ext x
  rw [mem_varsOf]
  constructor
  · rintro ⟨q, hq⟩; exact (mem_filterColumns.1 hq).2
  · intro hx
    obtain ⟨q, hq⟩ := mem_varsOf.1 (h hx)
    exact ⟨q, mem_filterColumns.2 ⟨hq, hx⟩⟩

theorem filterRows_sub (m : Mat) (s : Finset Point) : m.filterRows s ⊆ m :=
  Finset.filter_subset _ _

theorem filterColumns_sub (m : Mat) (s : Finset Point) : m.filterColumns s ⊆ m :=
  Finset.filter_subset _ _

theorem eqsOf_mono {m m' : Mat} (h : m ⊆ m') : m.eqsOf ⊆ m'.eqsOf := Finset.image_subset_image h

theorem varsOf_mono {m m' : Mat} (h : m ⊆ m') : m.varsOf ⊆ m'.varsOf := Finset.image_subset_image h

theorem aug_head {G : Graph} {i : Nat} {P : Finset Point} {p : List Flow} (h : Aug G i P p) :
    ∃ k d rest, p = ⟨.eq i, k, d⟩ :: rest ∧ d.eqsOf = P := by
  cases h with
  | last h1 h2 h3 h4 h5 => exact ⟨_, _, _, rfl, h4⟩
  | step h1 h2 h3 h4 h5 h6 h7 h8 h9 => exact ⟨_, _, _, rfl, h4⟩

/-- The vertex at the beginning of a path. -/
def rootOf : Step → Vtx
  | .root n _ => n
  | .next prev _ _ _ _ => rootOf prev

theorem flowsOf_aug {G : Graph} {p : Step} (hp : IsPath G p) :
    ∀ flows, Cont G p.node p.cands flows →
      ∃ i P, rootOf p = .eq i ∧ P ⊆ (G.node (.eq i)).unmatched ∧ Aug G i P (flowsOf p flows) := by
  induction hp with
  | @root i c h =>
    rintro flows ⟨P, h1, h2⟩
    exact ⟨i, P, rfl, h1.trans h, h2⟩
  | @toVar prev k flow hp hn hs ho hl hc ih =>
    rintro flows ⟨k', b, rest, rfl, h1, h2, h3, h4, h5⟩
    refine ih _ ?_
    rw [hn]
    change b.varsOf ⊆ flow.varsOf at h4
    refine ⟨(flow.filterColumns b.varsOf).eqsOf, (eqsOf_mono (filterColumns_sub _ _)).trans hl, ?_⟩
    refine Aug.step rfl ((filterColumns_sub _ _).trans hs)
      (oneToOne_mono ho (filterColumns_sub _ _)) rfl h1 h2 h3 ?_ h5
    exact (varsOf_filterColumns h4).symm
  | @toEq prev k flow hp hn hs ho hl hc ih =>
    rintro flows ⟨P, h1, h2⟩
    obtain ⟨k', d, rest, rfl, hd⟩ := aug_head h2
    refine ih _ ?_
    rw [hn]
    refine ⟨k, flow.filterRows d.eqsOf, _, rfl, rfl, (filterRows_sub _ _).trans hs,
      oneToOne_mono ho (filterRows_sub _ _), (varsOf_mono (filterRows_sub _ _)).trans hl, ?_⟩
    rw [eqsOf_filterRows (by rw [hd]; exact h1), hd]
    exact h2

theorem candidate_aug {G : Graph} {p : Step} (hp : Candidate G p) :
    ∃ i P, rootOf p = .eq i ∧ P ⊆ (G.node (.eq i)).unmatched ∧ Aug G i P (flowsOf p []) := by
  cases p with
  | root n c => exact hp.elim
  | next prev k n c flow =>
    obtain ⟨h1, h2, rfl, h4, h5, h6, h7, h8, h9, h10, _⟩ := hp
    refine flowsOf_aug h1 _ ?_
    rw [h2]
    exact ⟨flow.eqsOf, h6, Aug.last rfl h4 h5 rfl h7⟩

/-! ### Paths that visit every vertex at most once -/

theorem flowsOf_simple {G : Graph} {p : Step} (hp : IsPath G p) :
    (nodes p).Nodup → ∀ flows, (forward flows).Pairwise (FDisj G) →
      (∀ f ∈ forward flows, Vtx.var (G.edge f.edge).var ∉ nodes p ∧
        Vtx.eq (G.edge f.edge).eq ∉ (nodes p).tail) → (forward (flowsOf p flows)).Pairwise (FDisj G) := by
  induction hp with
  | root h => intro _ flows h1 _; exact h1
  | @toVar prev k flow hp hn hs ho hl hc ih =>
    intro hnd flows h1 h2
    simp only [nodes, List.nodup_cons] at hnd
    simp only [nodes, List.tail_cons, List.mem_cons, not_or] at h2
    have hf : forward (⟨prev.node, k, restrict (.var (G.edge k).var) flow flows⟩ :: flows) =
        ⟨prev.node, k, restrict (.var (G.edge k).var) flow flows⟩ :: forward flows := by
      simp [forward, hn, Vtx.isVar]
    have hpn : nodes prev = prev.node :: (nodes prev).tail := by cases prev <;> rfl
    refine ih hnd.2 _ ?_ ?_
    · rw [hf, List.pairwise_cons]
      refine ⟨fun f hf => ⟨fun he => ?_, fun he => ?_⟩, h1⟩
      · refine absurd ?_ (h2 f hf).2
        have : Vtx.eq (G.edge f.edge).eq = prev.node := by rw [hn]; exact congrArg _ he.symm
        rw [this, hpn]
        exact List.mem_cons_self
      · exact absurd (congrArg Vtx.var he.symm) (h2 f hf).1.1
    · rw [hf]
      intro f hf
      rcases List.mem_cons.1 hf with rfl | hf
      · refine ⟨hnd.1, ?_⟩
        have := hnd.2
        rw [hpn, List.nodup_cons, hn] at this
        exact this.1
      · exact ⟨(h2 f hf).1.2, fun h => (h2 f hf).2 (List.mem_of_mem_tail h)⟩
  | @toEq prev k flow hp hn hs ho hl hc ih =>
    intro hnd flows h1 h2
    simp only [nodes, List.nodup_cons] at hnd
    simp only [nodes, List.tail_cons, List.mem_cons, not_or] at h2
    have hf : forward (⟨prev.node, k, restrict (.eq (G.edge k).eq) flow flows⟩ :: flows) =
        forward flows := by
      simp [forward, hn, Vtx.isVar]
    refine ih hnd.2 _ ?_ ?_
    · rw [hf]; exact h1
    · rw [hf]
      intro f hf
      exact ⟨(h2 f hf).1.2, fun h => (h2 f hf).2 (List.mem_of_mem_tail h)⟩

theorem candidate_simple {G : Graph} {p : Step} (hp : Candidate G p) (hn : (nodes p).Nodup) :
    (forward (flowsOf p [])).Pairwise (FDisj G) := by
  cases p with
  | root n c => exact hp.elim
  | next prev k n c flow =>
    obtain ⟨h1, h2, rfl, h4, h5, h6, h7, h8, h9, h10, _⟩ := hp
    simp only [nodes, List.nodup_cons] at hn
    have hpn : nodes prev = prev.node :: (nodes prev).tail := by cases prev <;> rfl
    refine flowsOf_simple h1 hn.2 _ ?_ ?_
    · simp [forward, h2, Vtx.isVar]
    · intro f hf
      simp only [forward, h2, Vtx.isVar, restrict, Bool.not_false, List.filter_cons_of_pos,
        List.filter_nil, List.mem_singleton] at hf
      subst hf
      refine ⟨hn.1, ?_⟩
      have := hn.2
      rw [hpn, List.nodup_cons, h2] at this
      exact this.1

theorem candidate_augPath {G : Graph} {p : Step} (hp : Candidate G p) (hn : (nodes p).Nodup) :
    ∃ i, AugPath G i (flowsOf p []) := by
  obtain ⟨i, P, _, h1, h2⟩ := candidate_aug hp
  exact ⟨i, P, h1, h2, candidate_simple hp hn⟩

/-! ### The maps of the visits -/

/-- The indices of a vertex in a map. -/
def look (m : VMap) (v : Vtx) : Finset Point := (m.lookup v).getD ∅

theorem lookup_filter_ne (m : VMap) {v w : Vtx} (h : w ≠ v) :
    (m.filter fun x => !decide (x.1 = v)).lookup w = m.lookup w := by
  induction m with
  | nil => rfl
  | cons a m ih =>
    obtain ⟨u, s⟩ := a
    rw [List.filter_cons]
    by_cases hu : u = v
    · subst hu
      have : (w == u) = false := by simpa using h
      simp [List.lookup_cons, ih, this]
    · simp only [hu, decide_false, Bool.not_false, if_true, List.lookup_cons, ih]

theorem look_set (m : VMap) (v w : Vtx) (s : Finset Point) :
    look (m.set v s) w = if w = v then s else look m w := by
  unfold look VMap.set
  by_cases h : w = v
  · subst h; simp
  · have : (w == v) = false := by simpa using h
    rw [List.lookup_cons, this, lookup_filter_ne m h, if_neg h]

theorem look_addTo (m : VMap) (v w : Vtx) (s : Finset Point) :
    look (m.addTo v s) w = if w = v then look m v ∪ s else look m w := by
  unfold VMap.addTo
  rw [look_set]; rfl

theorem look_mem {m : VMap} {v : Vtx} {x : Point} (h : x ∈ look m v) :
    ∃ s, (v, s) ∈ m ∧ x ∈ s ∧ m.lookup v = some s := by
  unfold look at h
  cases hl : m.lookup v with
  | none => rw [hl] at h; simp at h
  | some s =>
    rw [hl] at h
    refine ⟨s, ?_, h, rfl⟩
    clear h
    induction m with
    | nil => simp at hl
    | cons a m ih =>
      obtain ⟨u, t⟩ := a
      rw [List.lookup_cons] at hl
      split at hl
      · rename_i heq
        have : v = u := by simpa using heq
        subst this
        simp only [Option.some.injEq] at hl
        subst hl
        exact List.mem_cons_self
      · exact List.mem_cons_of_mem _ (ih hl)

/-- The keys of the map are unique. -/
def Keys (m : VMap) : Prop := (m.map Prod.fst).Nodup

theorem clear_spec {visited nv : VMap} (h : clear visited nv = true) (v : Vtx) :
    Disjoint (look nv v) (look visited v) := by
  rw [Finset.disjoint_left]
  intro x h1 h2
  obtain ⟨s, hs, hx, _⟩ := look_mem h1
  obtain ⟨t, _, hy, hl⟩ := look_mem h2
  unfold clear at h
  rw [List.all_eq_true] at h
  have := h (v, s) hs
  simp only [hl, decide_eq_true_eq] at this
  have hxy : x ∈ s ∩ t := Finset.mem_inter.2 ⟨hx, hy⟩
  rw [this] at hxy
  simp at hxy

theorem foldl_addTo_mono (nv visited : VMap) (v : Vtx) :
    look visited v ⊆ look (nv.foldl (fun m x => m.addTo x.1 x.2) visited) v := by
  induction nv generalizing visited with
  | nil => exact Finset.Subset.refl _
  | cons a nv ih =>
    rw [List.foldl_cons]
    refine Finset.Subset.trans ?_ (ih _)
    rw [look_addTo]
    split_ifs with h
    · subst h; exact Finset.subset_union_left
    · exact Finset.Subset.refl _

theorem foldl_addTo_new (nv visited : VMap) (v : Vtx) :
    look nv v ⊆ look (nv.foldl (fun m x => m.addTo x.1 x.2) visited) v := by
  induction nv generalizing visited with
  | nil => intro x h; simp [look] at h
  | cons a nv ih =>
    rw [List.foldl_cons]
    intro x hx
    obtain ⟨u, s⟩ := a
    unfold look at hx
    rw [List.lookup_cons] at hx
    split at hx
    · rename_i heq
      have : v = u := by simpa using heq
      subst this
      refine foldl_addTo_mono nv _ v ?_
      rw [look_addTo, if_pos rfl]
      exact Finset.mem_union_right _ hx
    · exact ih _ hx

/-- The visits of a flow are in the map. -/
def Rec (G : Graph) (m : VMap) (f : Flow) : Prop :=
  f.delta.eqsOf ⊆ look m (.eq (G.edge f.edge).eq) ∧
  f.delta.varsOf ⊆ look m (.var (G.edge f.edge).var)

theorem touch_look {seen : VMap} {node : Vtx} {map : Mat} {nv nv' : VMap}
    (h : touch seen node map nv = some nv') (hn : look nv node = ∅) (v : Vtx) :
    look nv' v = if v = node then (if node.isVar then map.varsOf else map.eqsOf) else look nv v := by
  unfold touch at h
  dsimp only at h
  split at h
  · split_ifs at h with h1 <;> simp only [Option.some.injEq] at h <;> subst h <;>
      rw [look_addTo, hn, Finset.empty_union] <;> simp [h1]
  · simp only [Option.some.injEq] at h
    subst h
    rw [look_set]

/-- The scan of a path that visits every vertex at most once records all the visits of its flows:
`flows` are the flows found so far, the first one leaves from the vertex of `p` and has its target
in the map. -/
theorem scan_rec {G : Graph} (view : Nat → VMap) {p : Step} (hp : IsPath G p) :
    ∀ (f : Flow) (flows : List Flow) (nv : VMap) (j : Nat) (r : List Flow × VMap),
      scan view p (f :: flows) f.delta nv j = some r → (nodes p).Nodup →
      (∀ v ∈ nodes p, look nv v = ∅) → (∀ f' ∈ flows, Rec G nv f') →
      (∀ i, p.node = .eq i → (G.edge f.edge).eq = i ∧ f.delta.eqsOf ⊆ p.cands ∧
        f.delta.varsOf ⊆ look nv (.var (G.edge f.edge).var)) →
      (∀ i, p.node = .var i → (G.edge f.edge).var = i ∧ f.delta.varsOf ⊆ p.cands ∧
        f.delta.eqsOf ⊆ look nv (.eq (G.edge f.edge).eq)) →
      ∀ f' ∈ r.1, Rec G r.2 f' := by
  induction hp with
  | @root i c h =>
    intro f flows nv j r h1 h2 h3 h4 h5 _
    simp only [scan, Option.map_eq_some_iff] at h1
    obtain ⟨nv', h1, rfl⟩ := h1
    have hl := touch_look h1 (h3 _ (by simp [nodes]))
    obtain ⟨e1, e2, e3⟩ := h5 i rfl
    have hvar : ∀ j, look nv' (.var j) = look nv (.var j) := fun j => by rw [hl, if_neg (by simp)]
    have heq : ∀ k, look nv (.eq k) ⊆ look nv' (.eq k) := by
      intro k
      rw [hl]
      split_ifs with hk hk'
      · simp [Vtx.isVar] at hk'
      · rw [hk, h3 _ (by simp [nodes])]; simp
      · exact Finset.Subset.refl _
    intro f' hf'
    rcases List.mem_cons.1 hf' with rfl | hf'
    · refine ⟨?_, by rw [hvar]; exact e3⟩
      rw [hl, e1]
      simp [Vtx.isVar]
    · exact ⟨(h4 f' hf').1.trans (heq _), by rw [hvar]; exact (h4 f' hf').2⟩
  | @toVar prev k flow hp hn hs ho hl hc ih =>
    intro f flows nv j r h1 h2 h3 h4 h5 h6
    simp only [scan, Option.bind_eq_some_iff] at h1
    obtain ⟨nv', h0, h1⟩ := h1
    simp only [nodes, List.nodup_cons] at h2
    have hl' := touch_look h0 (h3 _ (by simp [nodes]))
    obtain ⟨e1, e2, e3⟩ := h6 _ rfl
    change f.delta.varsOf ⊆ flow.varsOf at e2
    have ht : (restrict (.var (G.edge k).var) flow (f :: flows)).varsOf = f.delta.varsOf := by
      simp only [restrict, Vtx.isVar, if_true]
      exact varsOf_filterColumns e2
    simp only [Vtx.isVar, if_true] at hl'
    rw [ht] at hl'
    have hmono : ∀ v, look nv v ⊆ look nv' v := by
      intro v
      rw [hl']
      split_ifs with hv
      · rw [hv, h3 _ (by simp [nodes])]; simp
      · exact Finset.Subset.refl _
    refine ih ⟨prev.node, k, _⟩ (f :: flows) nv' (j + 1) r h1 h2.2 ?_ ?_ ?_ ?_
    · intro v hv
      rw [hl', if_neg (by rintro rfl; exact h2.1 hv)]
      exact h3 v (List.mem_cons_of_mem _ hv)
    · intro f' hf'
      rcases List.mem_cons.1 hf' with rfl | hf'
      · refine ⟨e3.trans (hmono _), ?_⟩
        rw [hl', if_pos (by rw [e1])]
      · exact ⟨(h4 f' hf').1.trans (hmono _), (h4 f' hf').2.trans (hmono _)⟩
    · intro i hi
      rw [hn] at hi
      refine ⟨Vtx.eq.inj hi, ?_, ?_⟩
      · refine Finset.Subset.trans (eqsOf_mono ?_) hl
        simp only [restrict, Vtx.isVar, if_true]
        exact filterColumns_sub _ _
      · rw [hl', if_pos rfl]
        exact ht.subset
    · intro i hi
      rw [hn] at hi
      exact absurd hi (by simp)
  | @toEq prev k flow hp hn hs ho hl hc ih =>
    intro f flows nv j r h1 h2 h3 h4 h5 h6
    simp only [scan, Option.bind_eq_some_iff] at h1
    obtain ⟨nv', h0, h1⟩ := h1
    simp only [nodes, List.nodup_cons] at h2
    have hl' := touch_look h0 (h3 _ (by simp [nodes]))
    obtain ⟨e1, e2, e3⟩ := h5 _ rfl
    change f.delta.eqsOf ⊆ flow.eqsOf at e2
    have ht : (restrict (.eq (G.edge k).eq) flow (f :: flows)).eqsOf = f.delta.eqsOf := by
      simp only [restrict, Vtx.isVar]
      exact eqsOf_filterRows e2
    simp only [Vtx.isVar, Bool.false_eq_true, if_false] at hl'
    rw [ht] at hl'
    have hmono : ∀ v, look nv v ⊆ look nv' v := by
      intro v
      rw [hl']
      split_ifs with hv
      · rw [hv, h3 _ (by simp [nodes])]; simp
      · exact Finset.Subset.refl _
    refine ih ⟨prev.node, k, _⟩ (f :: flows) nv' (j + 1) r h1 h2.2 ?_ ?_ ?_ ?_
    · intro v hv
      rw [hl', if_neg (by rintro rfl; exact h2.1 hv)]
      exact h3 v (List.mem_cons_of_mem _ hv)
    · intro f' hf'
      rcases List.mem_cons.1 hf' with rfl | hf'
      · refine ⟨?_, e3.trans (hmono _)⟩
        rw [hl', if_pos (by rw [e1])]
      · exact ⟨(h4 f' hf').1.trans (hmono _), (h4 f' hf').2.trans (hmono _)⟩
    · intro i hi
      rw [hn] at hi
      exact absurd hi (by simp)
    · intro i hi
      rw [hn] at hi
      refine ⟨Vtx.var.inj hi, ?_, ?_⟩
      · refine Finset.Subset.trans (varsOf_mono ?_) hl
        simp only [restrict, Vtx.isVar]
        exact filterRows_sub _ _
      · rw [hl', if_pos rfl]
        exact ht.subset

theorem scan_candidate {G : Graph} {view : Nat → VMap} {p : Step} (hp : Candidate G p)
    (hn : (nodes p).Nodup) {r : List Flow × VMap} (h : scan view p [] ∅ [] 0 = some r) :
    ∀ f ∈ r.1, Rec G r.2 f := by
  cases p with
  | root n c => exact hp.elim
  | next prev k n c flow =>
    obtain ⟨h1, h2, rfl, h4, h5, h6, h7, h8, h9, h10, _⟩ := hp
    simp only [nodes, List.nodup_cons] at hn
    simp only [scan, Option.bind_eq_some_iff] at h
    obtain ⟨nv', h0, h⟩ := h
    have hl := touch_look h0 rfl
    simp only [Vtx.isVar, if_true, restrict] at hl
    refine scan_rec view h1 ⟨prev.node, k, flow⟩ [] nv' 1 r h hn.2 ?_ (by simp) ?_ ?_
    · intro v hv
      rw [hl, if_neg (by rintro rfl; exact hn.1 hv)]
      rfl
    · intro i hi
      rw [h2] at hi
      exact ⟨Vtx.eq.inj hi, h6, by rw [hl, if_pos rfl]⟩
    · intro i hi
      rw [h2] at hi
      exact absurd hi (by simp)

/-- The accepted paths. -/
theorem filterPaths_spec {G : Graph} (view : Nat → Nat → Nat) :
    ∀ (ps : List Step) (n : Nat) (hist : List VMap) (acc : List (List Flow)),
      (∀ p ∈ ps, Candidate G p ∧ (nodes p).Nodup) →
      acc.Pairwise (PDisj G) → (∀ p ∈ acc, ∀ f ∈ p, Rec G (hist.headD []) f) →
      (filterPaths view ps n hist acc).Pairwise (PDisj G)
  | [], n, hist, acc, _, h, _ => h
  | p :: ps, n, hist, acc, hp, h1, h2 => by
    have hps : ∀ p ∈ ps, Candidate G p ∧ (nodes p).Nodup :=
      fun q hq => hp q (List.mem_cons_of_mem _ hq)
    have hskip : (filterPaths view ps (n + 1) (hist.headD [] :: hist) acc).Pairwise (PDisj G) :=
      filterPaths_spec view ps _ _ _ hps h1 h2
    unfold filterPaths
    dsimp only
    split
    · exact hskip
    · rename_i flows nv hs
      split_ifs with hc
      · have hr := scan_candidate (hp p (by simp)).1 (hp p (by simp)).2 hs
        dsimp only at hr
        refine filterPaths_spec view ps _ _ _ hps ?_ ?_
        · rw [List.pairwise_append]
          refine ⟨h1, List.pairwise_singleton _ _, ?_⟩
          intro a ha b hb
          rw [List.mem_singleton] at hb
          subst hb
          intro f hf f' hf'
          have e1 := h2 a ha f hf
          have e2 := hr f' hf'
          constructor
          · intro he
            have := clear_spec hc (.eq (G.edge f.edge).eq)
            rw [Finset.disjoint_left] at this ⊢
            intro x hx hx'
            exact this (by rw [he]; exact e2.1 hx') (e1.1 hx)
          · intro he
            have := clear_spec hc (.var (G.edge f.edge).var)
            rw [Finset.disjoint_left] at this ⊢
            intro x hx hx'
            exact this (by rw [he]; exact e2.2 hx') (e1.2 hx)
        · intro a ha f hf
          rw [List.mem_append, List.mem_singleton] at ha
          rcases ha with ha | rfl
          · exact ⟨(h2 a ha f hf).1.trans (foldl_addTo_mono _ _ _),
              (h2 a ha f hf).2.trans (foldl_addTo_mono _ _ _)⟩
          · exact ⟨(hr f hf).1.trans (foldl_addTo_new _ _ _),
              (hr f hf).2.trans (foldl_addTo_new _ _ _)⟩
      · exact hskip

theorem filterPaths_mem (view : Nat → Nat → Nat) :
    ∀ (ps : List Step) (n : Nat) (hist : List VMap) (acc : List (List Flow)) (q : List Flow),
      q ∈ filterPaths view ps n hist acc → q ∈ acc ∨ ∃ p ∈ ps, q = flowsOf p []
  | [], n, hist, acc, q, h => Or.inl h
  | p :: ps, n, hist, acc, q, h => by
    have up : ∀ {hist acc}, q ∈ filterPaths view ps (n + 1) hist acc →
        q ∈ acc ∨ ∃ p' ∈ p :: ps, q = flowsOf p' [] := by
      intro hist acc h
      rcases filterPaths_mem view ps _ _ _ q h with h | ⟨p', h1, h2⟩
      · exact Or.inl h
      · exact Or.inr ⟨p', List.mem_cons_of_mem _ h1, h2⟩
    unfold filterPaths at h
    dsimp only at h
    split at h
    · exact up h
    · rename_i flows nv hs
      split_ifs at h with hc
      · rcases up h with h | h
        · rw [List.mem_append, List.mem_singleton] at h
          rcases h with h | rfl
          · exact Or.inl h
          · exact Or.inr ⟨p, by simp, scan_flows _ _ _ _ _ _ _ hs⟩
        · exact Or.inr h
      · exact up h

/-! ### Disjoint paths do not interfere -/

theorem pdisj_symm {G : Graph} {p q : List Flow} (h : PDisj G p q) : PDisj G q p :=
  fun f hf f' hf' => ⟨fun e => ((h f' hf' f hf).1 e.symm).symm,
    fun e => ((h f' hf' f hf).2 e.symm).symm⟩

/-- The same vertices at the ends of the edges. -/
structure SameEnds (G G' : Graph) : Prop where
  eq : ∀ k, (G'.edge k).eq = (G.edge k).eq
  var : ∀ k, (G'.edge k).var = (G.edge k).var

theorem SameEnds.fdisj {G G' : Graph} (h : SameEnds G G') (f f' : Flow) :
    FDisj G' f f' ↔ FDisj G f f' := by
  unfold FDisj; rw [h.eq, h.eq, h.var, h.var]

theorem SameEnds.pdisj {G G' : Graph} (h : SameEnds G G') (p p' : List Flow) :
    PDisj G' p p' ↔ PDisj G p p' := by
  unfold PDisj; simp only [h.fdisj]

theorem sameEnds_applyPath {G : Graph} (p : List Flow) : SameEnds G (applyPath G p) := by
  have key : ∀ (p : List Flow) (e : Nat → Edge) (k : Nat), (p.foldl applyEdge e k).eq = (e k).eq ∧
      (p.foldl applyEdge e k).var = (e k).var := by
    intro p
    induction p with
    | nil => intro e k; exact ⟨rfl, rfl⟩
    | cons f p ih =>
      intro e k
      rw [List.foldl_cons, (ih _ k).1, (ih _ k).2]
      unfold applyEdge
      split_ifs <;> exact ⟨rfl, rfl⟩
  exact ⟨fun k => (key p G.edge k).1, fun k => (key p G.edge k).2⟩

theorem aug_after {G G' : Graph} {i j : Nat} {P Q : Finset Point} {p : List Flow}
    (hp : Facts G i P j Q p) (A : After G i P j Q p G') {i' : Nat}
    {P' : Finset Point} {p' : List Flow} (h : Aug G i' P' p') (hd : PDisj G p p') :
    Aug G' i' P' p' := by
  have hF : ∀ k d v, (⟨v, k, d⟩ : Flow) ∈ p' → ∀ x ∈ d, ¬ FM p k x := by
    rintro k d v hm x hx ⟨f, hf, hv, rfl, hx'⟩
    have := (hd f hf _ hm).1 rfl
    rw [Finset.disjoint_left] at this
    exact this (mem_eqsOf.2 ⟨x.2, hx'⟩) (mem_eqsOf.2 ⟨x.2, hx⟩)
  have hB : ∀ k d v, (⟨v, k, d⟩ : Flow) ∈ p' → ∀ x ∈ d, ¬ BM p k x := by
    rintro k d v hm x hx ⟨f, hf, hv, rfl, hx'⟩
    have := (hd f hf _ hm).1 rfl
    rw [Finset.disjoint_left] at this
    exact this (mem_eqsOf.2 ⟨x.2, hx'⟩) (mem_eqsOf.2 ⟨x.2, hx⟩)
  induction h with
  | @last i' k P' d h1 h2 h3 h4 h5 =>
    refine Aug.last (by rw [A.eq]; exact h1) ?_ h3 h4 ?_
    · intro x hx
      exact (A.unm k x).2 (Or.inl ⟨h2 hx, hF k d (.eq i') (by simp) x hx⟩)
    · intro x hx
      rw [A.var, A.varU]
      refine ⟨h5 hx, ?_⟩
      rintro ⟨e1, e2⟩
      obtain ⟨k2, q, e3, f, hf, hv, rfl, hx'⟩ := hp.finish x e2
      have := (hd f hf ⟨.eq i', k, d⟩ (by simp)).2 (e3.trans e1.symm)
      rw [Finset.disjoint_left] at this
      exact this (mem_varsOf.2 ⟨q, hx'⟩) hx
  | @step i' k k' P' d b rest h1 h2 h3 h4 h5 h6 h7 h8 _ ih =>
    have := ih (fun f hf f' hf' => hd f hf f' (by simp [hf']))
      (fun k d v hm => hF k d v (by simp [hm])) (fun k d v hm => hB k d v (by simp [hm]))
    rw [← A.eq] at this
    rw [← A.var k]
    refine Aug.step (by rw [A.eq]; exact h1) ?_ h3 h4 (by rw [A.var, A.var]; exact h5) ?_ h7 h8 this
    · intro x hx
      exact (A.unm k x).2 (Or.inl ⟨h2 hx, hF k d (.eq i') (by simp) x hx⟩)
    · intro x hx
      exact (A.mat k' x).2 (Or.inl ⟨h6 hx, hB k' b (.var (G.edge k).var) (by simp) x hx⟩)

theorem augPath_after {G : Graph} (hG : Valid G) {i i' : Nat} {p p' : List Flow}
    (hp : AugPath G i p) (hp' : AugPath G i' p') (hd : PDisj G p p') :
    AugPath (applyPath G p) i' p' := by
  obtain ⟨P, hP, hA, hs⟩ := hp
  obtain ⟨P', hP', hA', hs'⟩ := hp'
  obtain ⟨j, Q, hF⟩ := aug_facts hA
  have A := after_applyPath hG hF
  refine ⟨P', ?_, aug_after hF A hA' hd, ?_⟩
  · intro x hx
    rw [A.eqU]
    refine ⟨hP' hx, ?_⟩
    rintro ⟨e1, e2⟩
    obtain ⟨j', Q', hF'⟩ := aug_facts hA'
    obtain ⟨k1, q1, e3, f, hf, hv, rfl, hx1⟩ := hF.start x e2
    obtain ⟨k2, q2, e4, f', hf', hv', rfl, hx2⟩ := hF'.start x hx
    have := (hd f hf f' hf').1 (e3.trans (e1.symm.trans e4.symm))
    rw [Finset.disjoint_left] at this
    exact this (mem_eqsOf.2 ⟨q1, hx1⟩) (mem_eqsOf.2 ⟨q2, hx2⟩)
  · exact hs'.imp fun {a b} h => ((sameEnds_applyPath (G := G) p).fdisj a b).2 h

theorem graph_ext {G G' : Graph} (h1 : G.ne = G'.ne) (h2 : G.nv = G'.nv) (h3 : G.nd = G'.nd)
    (h4 : ∀ v, (G.node v).idx = (G'.node v).idx ∧ (∀ x, x ∈ (G.node v).matched ↔ x ∈ (G'.node v).matched) ∧
      ∀ x, x ∈ (G.node v).unmatched ↔ x ∈ (G'.node v).unmatched)
    (h5 : ∀ k, (G.edge k).eq = (G'.edge k).eq ∧ (G.edge k).var = (G'.edge k).var ∧
      (G.edge k).inc = (G'.edge k).inc ∧ (∀ x, x ∈ (G.edge k).matched ↔ x ∈ (G'.edge k).matched) ∧
      ∀ x, x ∈ (G.edge k).unmatched ↔ x ∈ (G'.edge k).unmatched) : G = G' := by
  have hn : G.node = G'.node := by
    funext v
    obtain ⟨e1, e2, e3⟩ := h4 v
    have e2 := Finset.ext e2
    have e3 := Finset.ext e3
    cases ha : G.node v; cases hb : G'.node v
    rw [ha, hb] at e1 e2 e3
    simp_all
  have he : G.edge = G'.edge := by
    funext v
    obtain ⟨e1, e2, e3, e4, e5⟩ := h5 v
    have e4 := Finset.ext e4
    have e5 := Finset.ext e5
    cases ha : G.edge v; cases hb : G'.edge v
    rw [ha, hb] at e1 e2 e3 e4 e5
    simp_all
  cases G; cases G'
  simp_all

theorem Facts.end_iff {G : Graph} {i j : Nat} {P Q : Finset Point} {p : List Flow}
    (h : Facts G i P j Q p) (hG : Valid G) (jj : Nat) (x : Point) :
    (jj = j ∧ x ∈ Q) ↔ (∃ k q, (G.edge k).var = jj ∧ FM p k (q, x)) ∧
      x ∈ (G.node (.var jj)).unmatched := by
  constructor
  · rintro ⟨rfl, hx⟩
    exact ⟨h.finish x hx, h.free hx⟩
  · rintro ⟨⟨k, q, e1, e2⟩, hx⟩
    rcases h.colF k q x e2 with ⟨e3, e4⟩ | ⟨k', q', e3, f, hf, hv, rfl, hx'⟩
    · exact ⟨e1.symm.trans e3, e4⟩
    · rw [hG.part, Finset.mem_sdiff] at hx
      exact absurd ((hG.vars jj x).2 ⟨_, q', e3.trans e1, (h.bwd f hf hv).1 hx'⟩) hx.2

theorem end_aux {X Y Z : Prop} (h : X → Y → False) : (Y ∧ Z ∧ ¬ (X ∧ Z)) ↔ Y ∧ Z := by
  tauto

theorem applyPath_comm {G : Graph} (hG : Valid G) {i i' : Nat} {p p' : List Flow}
    (hp : AugPath G i p) (hp' : AugPath G i' p') (hd : PDisj G p p') :
    applyPath (applyPath G p) p' = applyPath (applyPath G p') p := by
  obtain ⟨P, hP, hA, hs⟩ := hp
  obtain ⟨P', hP', hA', hs'⟩ := hp'
  obtain ⟨j, Q, hF⟩ := aug_facts hA
  obtain ⟨j', Q', hF'⟩ := aug_facts hA'
  have A := after_applyPath hG hF
  have A' := after_applyPath hG hF'
  have V := valid_applyPath hG hF hP hs
  have V' := valid_applyPath hG hF' hP' hs'
  obtain ⟨j2, Q2, hF2⟩ := aug_facts (aug_after hF A hA' hd)
  obtain ⟨j3, Q3, hF3⟩ := aug_facts (aug_after hF' A' hA (pdisj_symm hd))
  have B := after_applyPath V hF2
  have B' := after_applyPath V' hF3
  have x1 : ∀ k x, FM p k x → ¬ FM p' k x ∧ ¬ BM p' k x := by
    rintro k x ⟨f, hf, hv, rfl, hx⟩
    constructor <;>
    · rintro ⟨f', hf', hv', he, hx'⟩
      have := (hd f hf f' hf').1 (by rw [he])
      rw [Finset.disjoint_left] at this
      exact this (mem_eqsOf.2 ⟨x.2, hx⟩) (mem_eqsOf.2 ⟨x.2, hx'⟩)
  have x2 : ∀ k x, BM p k x → ¬ FM p' k x ∧ ¬ BM p' k x := by
    rintro k x ⟨f, hf, hv, rfl, hx⟩
    constructor <;>
    · rintro ⟨f', hf', hv', he, hx'⟩
      have := (hd f hf f' hf').1 (by rw [he])
      rw [Finset.disjoint_left] at this
      exact this (mem_eqsOf.2 ⟨x.2, hx⟩) (mem_eqsOf.2 ⟨x.2, hx'⟩)
  have x3 : ∀ jj x, (∃ k q, (G.edge k).var = jj ∧ FM p k (q, x)) →
      (∃ k q, (G.edge k).var = jj ∧ FM p' k (q, x)) → False := by
    rintro jj x ⟨k, q, e1, f, hf, hv, rfl, hx⟩ ⟨k', q', e2, f', hf', hv', rfl, hx'⟩
    have := (hd f hf f' hf').2 (e1.trans e2.symm)
    rw [Finset.disjoint_left] at this
    exact this (mem_varsOf.2 ⟨q, hx⟩) (mem_varsOf.2 ⟨q', hx'⟩)
  have y1 : ∀ jj x, (jj = j2 ∧ x ∈ Q2) ↔ (jj = j' ∧ x ∈ Q') := by
    intro jj x
    rw [hF2.end_iff V, hF'.end_iff hG, A.varU, hF.end_iff hG]
    simp only [A.var]
    exact end_aux (x3 jj x)
  have y2 : ∀ jj x, (jj = j3 ∧ x ∈ Q3) ↔ (jj = j ∧ x ∈ Q) := by
    intro jj x
    rw [hF3.end_iff V', hF.end_iff hG, A'.varU, hF'.end_iff hG]
    simp only [A'.var]
    exact end_aux (fun h1 h2 => x3 jj x h2 h1)
  refine graph_ext rfl rfl rfl (fun v => ⟨rfl, ?_⟩) (fun k => ⟨?_, ?_, ?_, ?_, ?_⟩)
  · cases v with
    | eq k =>
      refine ⟨fun x => ?_, fun x => ?_⟩
      · rw [B.eqM, A.eqM, B'.eqM, A'.eqM]; tauto
      · rw [B.eqU, A.eqU, B'.eqU, A'.eqU]; tauto
    | var k =>
      refine ⟨fun x => ?_, fun x => ?_⟩
      · rw [B.varM, A.varM, B'.varM, A'.varM, y1, y2]; tauto
      · rw [B.varU, A.varU, B'.varU, A'.varU, y1, y2]; tauto
  · rw [B.eq, B'.eq, A.eq, A'.eq]
  · rw [B.var, B'.var, A.var, A'.var]
  · rw [B.inc, B'.inc, A.inc, A'.inc]
  · intro x
    rw [B.mat, B'.mat, A.mat, A'.mat]
    have := x1 k x
    have := x2 k x
    tauto
  · intro x
    rw [B.unm, B'.unm, A.unm, A'.unm]
    have := x1 k x
    have := x2 k x
    tauto

/-- The application of several paths. -/
def applyMany (G : Graph) (ps : List (List Flow)) : Graph := ps.foldl applyPath G

theorem applyMany_valid {G : Graph} (hG : Valid G) {ps : List (List Flow)}
    (hp : ∀ p ∈ ps, ∃ i, AugPath G i p) (hd : ps.Pairwise (PDisj G)) : Valid (applyMany G ps) := by
  induction ps generalizing G with
  | nil => exact hG
  | cons p ps ih =>
    obtain ⟨i, h⟩ := hp p (by simp)
    have hV : Valid (applyPath G p) := by
      obtain ⟨P, hP, hA, hs⟩ := h
      obtain ⟨j, Q, hF⟩ := aug_facts hA
      exact valid_applyPath hG hF hP hs
    rw [List.pairwise_cons] at hd
    refine ih hV ?_ ?_
    · intro q hq
      obtain ⟨i', h'⟩ := hp q (by simp [hq])
      exact ⟨i', augPath_after hG h h' (hd.1 q hq)⟩
    · refine hd.2.imp ?_
      intro a b hab
      exact ((sameEnds_applyPath p).pdisj a b).2 hab

theorem applyMany_perm {ps qs : List (List Flow)} (h : ps.Perm qs) :
    ∀ {G : Graph}, Valid G → (∀ p ∈ ps, ∃ i, AugPath G i p) → ps.Pairwise (PDisj G) →
      applyMany G ps = applyMany G qs := by
  induction h with
  | nil => intros; rfl
  | @cons p ps qs _ ih =>
    intro G hG hp hd
    obtain ⟨i, h⟩ := hp p (by simp)
    have hV : Valid (applyPath G p) := by
      obtain ⟨P, hP, hA, hs⟩ := h
      obtain ⟨j, Q, hF⟩ := aug_facts hA
      exact valid_applyPath hG hF hP hs
    rw [List.pairwise_cons] at hd
    refine ih hV ?_ ?_
    · intro q hq
      obtain ⟨i', h'⟩ := hp q (by simp [hq])
      exact ⟨i', augPath_after hG h h' (hd.1 q hq)⟩
    · refine hd.2.imp ?_
      intro a b hab
      exact ((sameEnds_applyPath p).pdisj a b).2 hab
  | swap p q l =>
    intro G hG hp hd
    obtain ⟨i, h⟩ := hp p (by simp)
    obtain ⟨i', h'⟩ := hp q (by simp)
    rw [List.pairwise_cons] at hd
    unfold applyMany
    rw [List.foldl_cons, List.foldl_cons, List.foldl_cons, List.foldl_cons,
      applyPath_comm hG h' h (hd.1 p (by simp))]
  | trans h1 h2 ih1 ih2 =>
    intro G hG hp hd
    rw [ih1 hG hp hd]
    refine ih2 hG (fun p h => hp p (h1.mem_iff.2 h)) ?_
    exact hd.perm h1 pdisj_symm

end Matching
end Marco
