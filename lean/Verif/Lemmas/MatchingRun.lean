import Verif.Lemmas.MatchingPaths

/-!
# Lemmas about the search, the iterations and the leaf nodes
-/

namespace Marco
namespace Matching
open Mat Spec

/-- The table of the traversable edges contains edges of the vertices. -/
structure TravOk (G : Graph) (trav : Trav) : Prop where
  eq : ∀ i, ∀ k ∈ trav (.eq i), (G.edge k).eq = i
  var : ∀ j, ∀ k ∈ trav (.var j), (G.edge k).var = j

theorem mem_insertStep (s t : Step) : ∀ l, t ∈ insertStep s l ↔ t = s ∨ t ∈ l
  | [] => by simp [insertStep]
  | a :: l => by
    unfold insertStep
    split_ifs
    · simp
    · rw [List.mem_cons, mem_insertStep s t l, List.mem_cons]
      tauto

theorem mem_sortPaths (t : Step) (l : List Step) : t ∈ sortPaths l ↔ t ∈ l := by
  have key : ∀ (l acc : List Step), t ∈ l.foldl (fun l s => insertStep s l) acc ↔ t ∈ l ∨ t ∈ acc := by
    intro l
    induction l with
    | nil => intro acc; simp
    | cons a l ih =>
      intro acc
      rw [List.foldl_cons, ih, mem_insertStep, List.mem_cons]
      tauto
  unfold sortPaths
  rw [key]
  simp

theorem expand_ok {solve : Solver} (hs : SolverOk solve) {G : Graph} {trav : Trav}
    (ht : TravOk G trav) {st : Step} (h : IsPath G st) :
    (∀ t ∈ (expand solve G trav st).1, IsPath G t) ∧
    ∀ t ∈ (expand solve G trav st).2, Candidate G t := by
  unfold expand
  simp only [List.flatMap_map, List.mem_flatMap]
  constructor
  · rintro t ⟨k, hk, h1⟩
    split_ifs at h1 with hv
    · obtain ⟨j, hj⟩ : ∃ j, st.node = .var j := by
        cases hn : st.node with
        | eq i => simp [hn, Vtx.isVar] at hv
        | var j => exact ⟨j, rfl⟩
      rw [hj] at hk
      have he := ht.var j k hk
      simp only [expandVar, List.mem_map, List.mem_filter] at h1
      obtain ⟨s, ⟨h2, h3⟩, rfl⟩ := h1
      obtain ⟨h4, h5⟩ := hs _ s h2
      refine .toEq h (by rw [hj, he]) (h4.trans (filterColumns_sub _ _)) h5 ?_ (by simpa using h3)
      intro x hx
      obtain ⟨p, hp⟩ := mem_varsOf.1 hx
      exact (mem_filterColumns.1 (h4 hp)).2
    · obtain ⟨j, hj⟩ : ∃ j, st.node = .eq j := by
        cases hn : st.node with
        | eq i => exact ⟨i, rfl⟩
        | var j => simp [hn, Vtx.isVar] at hv
      rw [hj] at hk
      have he := ht.eq j k hk
      simp only [expandEq, List.mem_map, List.mem_filter] at h1
      obtain ⟨s, ⟨⟨h2, h3⟩, _⟩, rfl⟩ := h1
      obtain ⟨h4, h5⟩ := hs _ s h2
      refine .toVar h (by rw [hj, he]) (h4.trans (filterRows_sub _ _)) h5 ?_ (by simpa using h3)
      intro x hx
      obtain ⟨p, hp⟩ := mem_eqsOf.1 hx
      exact (mem_filterRows.1 (h4 hp)).2
  · rintro t ⟨k, hk, h1⟩
    split_ifs at h1 with hv
    · simp [expandVar] at h1
    · obtain ⟨j, hj⟩ : ∃ j, st.node = .eq j := by
        cases hn : st.node with
        | eq i => exact ⟨i, rfl⟩
        | var j => simp [hn, Vtx.isVar] at hv
      rw [hj] at hk
      have he := ht.eq j k hk
      simp only [expandEq, List.mem_map, List.mem_filter] at h1
      obtain ⟨s, ⟨⟨h2, h3⟩, h6⟩, rfl⟩ := h1
      obtain ⟨h4, h5⟩ := hs _ s h2
      have hsub : s ⊆ (G.edge k).unmatched := h4.trans (filterRows_sub _ _)
      refine ⟨h, by rw [hj, he], rfl, (filterColumns_sub _ _).trans hsub,
        oneToOne_mono h5 (filterColumns_sub _ _), ?_, ?_, by simpa using h6,
        varsOf_mono (filterColumns_sub _ _), by simpa using h3, varsOf_mono hsub⟩
      · intro x hx
        obtain ⟨p, hp⟩ := mem_eqsOf.1 hx
        exact (mem_filterRows.1 (h4 (filterColumns_sub _ _ hp))).2
      · intro x hx
        obtain ⟨p, hp⟩ := mem_varsOf.1 hx
        exact (mem_filterColumns.1 hp).2

theorem search_ok {solve : Solver} (hs : SolverOk solve) {G : Graph} {trav : Trav}
    (ht : TravOk G trav) {s : Sched} (hS : SchedOk s) :
    ∀ (fuel round : Nat) (frontier cs : List Step), (∀ t ∈ frontier, IsPath G t) →
      search solve G trav s fuel round frontier = some cs → ∀ t ∈ cs, Candidate G t := by
  intro fuel
  induction fuel with
  | zero => intro round frontier cs _ h; simp [search] at h
  | succ fuel ih =>
    intro round frontier cs hf h
    unfold search at h
    dsimp only at h
    split_ifs at h with h1 h2
    · simp only [Option.some.injEq] at h
      subst h
      simp
    · refine ih _ _ _ ?_ h
      intro t ht'
      rw [List.mem_flatMap] at ht'
      obtain ⟨st, hst, ht'⟩ := ht'
      have := (hS.frontier _ _).mem_iff.1 hst
      exact (expand_ok hs ht (hf st ((mem_sortPaths _ _).1 this))).1 t ht'
    · simp only [Option.some.injEq] at h
      subst h
      intro t ht'
      rw [mem_sortPaths, List.mem_flatMap] at ht'
      obtain ⟨st, hst, ht'⟩ := ht'
      have := (hS.paths _ _).mem_iff.1 hst
      exact (expand_ok hs ht (hf st ((mem_sortPaths _ _).1 this))).2 t ht'

theorem candidates_ok {solve : Solver} (hs : SolverOk solve) {G : Graph} {trav : Trav}
    (ht : TravOk G trav) {s : Sched} (hS : SchedOk s) {fuel : Nat} {cs : List Step}
    (h : candidates solve G trav s fuel = some cs) : ∀ t ∈ cs, Candidate G t := by
  refine search_ok hs ht hS fuel 0 _ cs ?_ h
  intro t ht'
  have := (hS.init _).mem_iff.1 ht'
  rw [List.mem_map] at this
  obtain ⟨i, _, rfl⟩ := this
  exact .root (Finset.Subset.refl _)

theorem initialTrav_ok (G : Graph) : TravOk G (initialTrav G) := by
  constructor
  · intro i k hk
    simp only [initialTrav, List.mem_filter, Bool.and_eq_true, decide_eq_true_eq] at hk
    exact hk.2.1
  · intro i k hk
    simp only [initialTrav, List.mem_filter, Bool.and_eq_true, decide_eq_true_eq] at hk
    exact hk.2.1

theorem mem_insertEdge {l : List Nat} {k k' : Nat} (h : k ∈ insertEdge l k') : k ∈ l ∨ k = k' := by
  unfold insertEdge at h
  split_ifs at h
  · exact Or.inl h
  · simpa using h

theorem mem_travFlow {G : Graph} {f : Flow} {e : Edge} {trav : Trav} {v : Vtx} {k : Nat}
    (h : k ∈ travFlow G f e trav v) :
    k ∈ trav v ∨ (k = f.edge ∧ (v = f.target G ∨ v = f.source)) := by
  unfold travFlow at h
  split_ifs at h with h1 h2 h3 h4
  all_goals first
    | (rcases mem_insertEdge h with h | h
       · exact Or.inl h
       · exact Or.inr ⟨h, by tauto⟩)
    | exact Or.inl (List.mem_of_mem_erase h)
    | exact Or.inl h

theorem travPath_ok {G : Graph} : ∀ (p : List Flow) (edge : Nat → Edge) (trav : Trav),
    SourceOk G p → TravOk G trav → TravOk G (travPath G p edge trav)
  | [], _, _, _, h => h
  | f :: fs, edge, trav, hp, h => by
    refine travPath_ok fs _ _ (fun f hf => hp f (by simp [hf])) ?_
    have hf := hp f (by simp)
    constructor
    · intro i k hk
      rcases mem_travFlow hk with hk | ⟨rfl, h1 | h1⟩
      · exact h.eq i k hk
      · unfold Flow.target at h1
        split_ifs at h1
        simpa using h1.symm
      · have := hf.1 (by rw [← h1]; rfl)
        rw [this] at h1
        simpa using h1.symm
    · intro i k hk
      rcases mem_travFlow hk with hk | ⟨rfl, h1 | h1⟩
      · exact h.var i k hk
      · unfold Flow.target at h1
        split_ifs at h1
        simpa using h1.symm
      · have := hf.2 (by rw [← h1]; rfl)
        rw [this] at h1
        simpa using h1.symm

theorem applyAll_ok {G : Graph} (hG : Valid G) {trav : Trav} (ht : TravOk G trav)
    {ps : List (List Flow)} (hp : ∀ p ∈ ps, ∃ i, AugPath G i p) (hd : ps.Pairwise (PDisj G)) :
    Valid (applyAll ps (G, trav)).1 ∧ TravOk (applyAll ps (G, trav)).1 (applyAll ps (G, trav)).2 ∧
    (applyAll ps (G, trav)).1 = applyMany G ps := by
  induction ps generalizing G trav with
  | nil => exact ⟨hG, ht, rfl⟩
  | cons p ps ih =>
    obtain ⟨i, h⟩ := hp p (by simp)
    have hV : Valid (applyPath G p) ∧ SourceOk G p := by
      obtain ⟨P, hP, hA, hs⟩ := h
      obtain ⟨j, Q, hF⟩ := aug_facts hA
      exact ⟨valid_applyPath hG hF hP hs, hF.src⟩
    have hE := sameEnds_applyPath (G := G) p
    have hT := travPath_ok p G.edge trav hV.2 ht
    have hT' : TravOk (applyPath G p) (travPath G p G.edge trav) :=
      ⟨fun i k hk => by rw [hE.eq]; exact hT.eq i k hk, fun i k hk => by rw [hE.var]; exact hT.var i k hk⟩
    rw [List.pairwise_cons] at hd
    refine ih hV.1 hT' ?_ ?_
    · intro q hq
      obtain ⟨i', h'⟩ := hp q (by simp [hq])
      exact ⟨i', augPath_after hG h h' (hd.1 q hq)⟩
    · refine hd.2.imp ?_
      intro a b hab
      exact (hE.pdisj a b).2 hab

theorem applyMany_same (G : Graph) (ps : List (List Flow)) :
    (applyMany G ps).ne = G.ne ∧ (applyMany G ps).nv = G.nv ∧
    (∀ k, ((applyMany G ps).edge k).inc = (G.edge k).inc) ∧ SameEnds G (applyMany G ps) ∧
    (∀ v, ((applyMany G ps).node v).idx = (G.node v).idx) := by
  induction ps generalizing G with
  | nil => exact ⟨rfl, rfl, fun _ => rfl, ⟨fun _ => rfl, fun _ => rfl⟩, fun _ => rfl⟩
  | cons p ps ih =>
    obtain ⟨h1, h2, h3, h4, h5⟩ := ih (applyPath G p)
    have key : ∀ (p : List Flow) (e : Nat → Edge) (k : Nat),
        (p.foldl applyEdge e k).inc = (e k).inc := by
      intro p
      induction p with
      | nil => intro e k; rfl
      | cons f p ih =>
        intro e k
        rw [List.foldl_cons, ih]
        unfold applyEdge
        split_ifs <;> rfl
    have hE := sameEnds_applyPath (G := G) p
    exact ⟨h1, h2, fun k => (h3 k).trans (key p G.edge k),
      ⟨fun k => (h4.eq k).trans (hE.eq k), fun k => (h4.var k).trans (hE.var k)⟩, h5⟩

/-- The graph has the same structure. -/
structure SameShape (G G' : Graph) : Prop extends SameEnds G G' where
  ne : G'.ne = G.ne
  nv : G'.nv = G.nv
  inc : ∀ k, (G'.edge k).inc = (G.edge k).inc
  idx : ∀ v, (G'.node v).idx = (G.node v).idx

theorem SameShape.refl (G : Graph) : SameShape G G :=
  ⟨⟨fun _ => rfl, fun _ => rfl⟩, rfl, rfl, fun _ => rfl, fun _ => rfl⟩

theorem SameShape.trans {G G' G'' : Graph} (h : SameShape G G') (h' : SameShape G' G'') :
    SameShape G G'' :=
  ⟨⟨fun k => (h'.eq k).trans (h.eq k), fun k => (h'.var k).trans (h.var k)⟩, h'.ne.trans h.ne,
    h'.nv.trans h.nv, fun k => (h'.inc k).trans (h.inc k), fun v => (h'.idx v).trans (h.idx v)⟩

theorem sameShape_applyMany (G : Graph) (ps : List (List Flow)) : SameShape G (applyMany G ps) := by
  obtain ⟨h1, h2, h3, h4, h5⟩ := applyMany_same G ps
  exact ⟨h4, h1, h2, h3, h5⟩

theorem augmentingPaths_ok {G : Graph} {s : Sched} (hS : SchedOk s) {cs : List Step}
    (hc : ∀ t ∈ cs, Candidate G t) (hn : ∀ t ∈ cs, (nodes t).Nodup) :
    (∀ p ∈ augmentingPaths s cs, ∃ i, AugPath G i p) ∧ (augmentingPaths s cs).Pairwise (PDisj G) := by
  have hm : ∀ t ∈ s.filter cs, Candidate G t ∧ (nodes t).Nodup := fun t ht =>
    ⟨hc t ((hS.filter cs).mem_iff.1 ht), hn t ((hS.filter cs).mem_iff.1 ht)⟩
  constructor
  · intro p hp
    rcases filterPaths_mem _ _ _ _ _ p hp with h | ⟨t, ht, rfl⟩
    · simp at h
    · exact candidate_augPath (hm t ht).1 (hm t ht).2
  · exact filterPaths_spec _ _ _ _ _ hm List.Pairwise.nil (by simp)

theorem hkLoop_ok {solve : Solver} (hs : SolverOk solve) {scheds : Nat → Sched}
    (hS : ∀ n, SchedOk (scheds n)) (sfuel : Nat) (G0 : Graph) :
    ∀ (fuel n : Nat) (s : Graph × Trav) (log : List Step) (b : Bool) (G' : Graph) (log' : List Step),
      Valid s.1 → TravOk s.1 s.2 → SameShape G0 s.1 →
      hkLoop solve scheds sfuel fuel n s log = some (b, G', log') →
      (∀ t ∈ log', (nodes t).Nodup) → Valid G' ∧ SameShape G0 G' ∧ b = G'.allMatched := by
  intro fuel
  induction fuel with
  | zero => intro n s log b G' log' _ _ _ h; simp [hkLoop] at h
  | succ fuel ih =>
    intro n s log b G' log' hV hT hE h hn
    have hlog : ∀ (fuel n : Nat) (s : Graph × Trav) (log : List Step) (r : Bool × Graph × List Step),
        hkLoop solve scheds sfuel fuel n s log = some r → ∀ t ∈ log, t ∈ r.2.2 := by
      intro fuel
      induction fuel with
      | zero => intro n s log r h; simp [hkLoop] at h
      | succ fuel ih =>
        intro n s log r h t ht
        unfold hkLoop at h
        simp only [Option.bind_eq_some_iff] at h
        obtain ⟨cs, _, h⟩ := h
        split_ifs at h
        · exact ih _ _ _ _ h t (List.mem_append_left _ ht)
        · simp only [Option.some.injEq] at h
          subst h
          exact List.mem_append_left _ ht
    unfold hkLoop at h
    simp only [Option.bind_eq_some_iff] at h
    obtain ⟨cs, hc, h⟩ := h
    have hcs : ∀ t ∈ cs, t ∈ log' := by
      intro t ht
      split_ifs at h
      · exact hlog _ _ _ _ _ h t (List.mem_append_right _ ht)
      · simp only [Option.some.injEq, Prod.mk.injEq] at h
        rw [← h.2.2]
        exact List.mem_append_right _ ht
    obtain ⟨h1, h2⟩ := augmentingPaths_ok (hS n) (candidates_ok hs hT (hS n) hc)
      (fun t ht => hn t (hcs t ht))
    obtain ⟨h3, h4, h5⟩ := applyAll_ok hV hT h1 h2
    have h6 : SameShape G0 (applyAll (augmentingPaths (scheds n) cs) s).1 := by
      refine hE.trans ?_
      rw [show s = (s.1, s.2) from rfl, h5]
      exact sameShape_applyMany _ _
    split_ifs at h
    · exact ih _ _ _ _ _ _ h3 h4 h6 h hn
    · simp only [Option.some.injEq, Prod.mk.injEq] at h
      obtain ⟨rfl, rfl, rfl⟩ := h
      exact ⟨h3, h6, rfl⟩

theorem applyHK_ok {solve : Solver} (hs : SolverOk solve) {scheds : Nat → Sched}
    (hS : ∀ n, SchedOk (scheds n)) {sfuel fuel : Nat} {G : Graph} (hG : Valid G) {b : Bool}
    {G' : Graph} {log : List Step} (h : applyHK solve scheds sfuel fuel G = some (b, G', log))
    (hn : ∀ t ∈ log, (nodes t).Nodup) : Valid G' ∧ SameShape G G' ∧ b = G'.allMatched := by
  unfold applyHK at h
  split_ifs at h with hm
  · simp only [Option.some.injEq, Prod.mk.injEq] at h
    obtain ⟨rfl, rfl, rfl⟩ := h
    exact ⟨hG, .refl _, hm.symm⟩
  · exact hkLoop_ok hs hS sfuel G fuel 0 _ _ _ _ _ hG (initialTrav_ok G) (.refl _) h hn

theorem unmatchedGraph_fresh {G : Graph} (hG : Valid G) : Fresh (unmatchedGraph G) := by
  refine ⟨⟨hG.eqLt, hG.varLt, ?_⟩, fun k => ⟨rfl, rfl⟩, fun v => ⟨rfl, rfl⟩⟩
  intro k p q h
  have h1 := mem_filterColumns.1 h
  have h2 := mem_filterRows.1 h1.1
  exact ⟨(hG.inc k p q h2.1).1, h2.2, h1.2⟩

/-! ### Leaf nodes -/

theorem dropEdges_graph (v2 : Vtx) : ∀ (ks : List Nat) (s : Leaf) (c : List Vtx),
    (dropEdges v2 ks s c).1.graph = s.graph
  | [], s, c => rfl
  | k :: ks, s, c => by
    unfold dropEdges
    dsimp only
    split_ifs
    · rw [dropEdges_graph v2 ks]
    · split <;> rw [dropEdges_graph v2 ks]

theorem leafStep_ok {solve : Solver} (hs : SolverOk solve) {G0 : Graph} {v1 : Vtx} {rest : List Vtx}
    {s : Leaf} {r : Leaf × List Vtx} (hV : Valid s.graph) (hE : SameShape G0 s.graph)
    (h : leafStep solve v1 rest s = some r) : Valid r.1.graph ∧ SameShape G0 r.1.graph := by
  unfold leafStep at h
  split_ifs at h
  · simp only [Option.some.injEq] at h
    subst h
    exact ⟨hV, hE⟩
  · split at h
    · simp at h
    · rename_i k _ _
      dsimp only at h
      split at h
      · rename_i sol hsol
        have hm := hs _ sol (by rw [hsol]; simp)
        have hx : ∀ p q, (p, q) ∈ sol → (p, q) ∈ (s.graph.edge k).unmatched ∧
            p ∈ (s.graph.node (.eq (s.graph.edge k).eq)).unmatched ∧
            q ∈ (s.graph.node (.var (s.graph.edge k).var)).unmatched := by
          intro p q hpq
          have h1 := mem_filterColumns.1 (hm.1 hpq)
          have h2 := mem_filterRows.1 h1.1
          exact ⟨h2.1, h2.2, h1.2⟩
        have hA : AugPath s.graph (s.graph.edge k).eq [⟨.eq (s.graph.edge k).eq, k, sol⟩] := by
          refine ⟨sol.eqsOf, ?_, Aug.last rfl ?_ hm.2 rfl ?_, by simp [forward, Vtx.isVar]⟩
          · intro x hx'
            obtain ⟨q, hq⟩ := mem_eqsOf.1 hx'
            exact (hx x q hq).2.1
          · intro x hx'
            exact (hx x.1 x.2 hx').1
          · intro x hx'
            obtain ⟨q, hq⟩ := mem_varsOf.1 hx'
            exact (hx q x hq).2.2
        have hV' := applyMany_valid hV (ps := [[⟨.eq (s.graph.edge k).eq, k, sol⟩]])
          (by simpa using ⟨_, hA⟩) (List.pairwise_singleton _ _)
        have hE' := hE.trans (sameShape_applyMany s.graph [[⟨.eq (s.graph.edge k).eq, k, sol⟩]])
        simp only [applyMany, List.foldl_cons, List.foldl_nil] at hV' hE'
        split_ifs at h
        · simp only [Option.some.injEq] at h
          subst h
          rw [dropEdges_graph]
          exact ⟨hV', hE'⟩
        · simp only [Option.some.injEq] at h
          subst h
          exact ⟨hV', hE'⟩
        · simp only [Option.some.injEq] at h
          subst h
          exact ⟨hV', hE'⟩
      · simp only [Option.some.injEq] at h
        subst h
        exact ⟨hV, hE⟩

theorem leafLoop_ok {solve : Solver} (hs : SolverOk solve) {G0 : Graph} :
    ∀ (fuel : Nat) (l : List Vtx) (s r : Leaf), Valid s.graph → SameShape G0 s.graph →
      leafLoop solve fuel l s = some r → Valid r.graph ∧ SameShape G0 r.graph := by
  intro fuel
  induction fuel with
  | zero =>
    intro l s r hV hE h
    cases l with
    | nil =>
      simp only [leafLoop, Option.some.injEq] at h
      subst h
      exact ⟨hV, hE⟩
    | cons v l => simp [leafLoop] at h
  | succ fuel ih =>
    intro l s r hV hE h
    cases l with
    | nil =>
      simp only [leafLoop, Option.some.injEq] at h
      subst h
      exact ⟨hV, hE⟩
    | cons v l =>
      simp only [leafLoop, Option.bind_eq_some_iff] at h
      obtain ⟨⟨s', c⟩, h1, h2⟩ := h
      obtain ⟨hV', hE'⟩ := leafStep_ok hs hV hE h1
      exact ih _ _ _ hV' hE' h2

theorem matchLeafNodes_ok {solve : Solver} (hs : SolverOk solve) {order : List Vtx → List Vtx}
    {fuel : Nat} {G G' : Graph} (hG : Valid G) (h : matchLeafNodes solve order fuel G = some G') :
    Valid G' ∧ SameShape G G' := by
  simp only [matchLeafNodes, Option.map_eq_some_iff] at h
  obtain ⟨s, h, rfl⟩ := h
  refine leafLoop_ok hs _ _ _ _ ?_ ?_ h
  · exact hG
  · exact .refl G

theorem allMatched_iff {G : Graph} : G.allMatched = true ↔
    (∀ i < G.ne, (G.node (.eq i)).unmatched = ∅) ∧ ∀ j < G.nv, (G.node (.var j)).unmatched = ∅ := by
  simp [Graph.allMatched, Graph.vertices]

theorem perfect_of_allMatched {G G1 G2 : Graph} (hE1 : SameShape G G1) (h1 : Valid G1)
    (hE2 : SameShape (unmatchedGraph G1) G2) (h2 : Valid G2) (hm : G2.allMatched = true) :
    Perfect G fun k => (G1.edge k).matched ∪ (G2.edge k).matched := by
  obtain ⟨me, mv⟩ := allMatched_iff.1 hm
  rw [hE2.ne] at me
  rw [hE2.nv] at mv
  have in2 : ∀ k p q, (p, q) ∈ (G2.edge k).matched → (p, q) ∈ (G1.edge k).inc ∧
      p ∈ (G1.node (.eq (G1.edge k).eq)).unmatched ∧ q ∈ (G1.node (.var (G1.edge k).var)).unmatched := by
    intro k p q h
    have := h2.sub k h
    rw [hE2.inc] at this
    have e1 := mem_filterColumns.1 this
    have e2 := mem_filterRows.1 e1.1
    exact ⟨e2.1, e2.2, e1.2⟩
  have e2e : ∀ k, (G2.edge k).eq = (G1.edge k).eq := hE2.eq
  have e2v : ∀ k, (G2.edge k).var = (G1.edge k).var := hE2.var
  refine ⟨?_, ?_, ?_⟩
  · intro k x hx
    rw [Finset.mem_union] at hx
    rcases hx with hx | hx
    · rw [← hE1.inc]; exact h1.sub k hx
    · rw [← hE1.inc]; exact (in2 k x.1 x.2 hx).1
  · intro i hi p hp
    rw [← hE1.idx] at hp
    by_cases hpm : p ∈ (G1.node (.eq i)).matched
    · obtain ⟨k, q, e1, e2⟩ := (h1.eqs i p).1 hpm
      refine ⟨(k, q), ⟨by rw [← hE1.eq]; exact e1, Finset.mem_union_left _ e2⟩, ?_⟩
      rintro ⟨k', q'⟩ ⟨e3, e4⟩
      dsimp only at e3 e4
      rw [← hE1.eq] at e3
      rcases Finset.mem_union.1 e4 with e4 | e4
      · obtain ⟨r1, r2⟩ := h1.row k' k p q' q e4 e2 (e3.trans e1.symm)
        rw [r1, r2]
      · have := (in2 k' p q' e4).2.1
        rw [e3, h1.part, Finset.mem_sdiff] at this
        exact absurd hpm this.2
    · have hpu : p ∈ (G2.node (.eq i)).idx := by
        rw [hE2.idx]
        change p ∈ (G1.node (.eq i)).unmatched
        rw [h1.part, Finset.mem_sdiff]
        exact ⟨hp, hpm⟩
      have hp2 : p ∈ (G2.node (.eq i)).matched := by
        have := me i (by change i < G1.ne; rw [hE1.ne]; exact hi)
        rw [h2.part] at this
        by_contra hc
        have : p ∈ (∅ : Finset Point) := by rw [← this, Finset.mem_sdiff]; exact ⟨hpu, hc⟩
        simp at this
      obtain ⟨k, q, e1, e2⟩ := (h2.eqs i p).1 hp2
      refine ⟨(k, q), ⟨by rw [← hE1.eq, ← e2e]; exact e1, Finset.mem_union_right _ e2⟩, ?_⟩
      rintro ⟨k', q'⟩ ⟨e3, e4⟩
      dsimp only at e3 e4
      rw [← hE1.eq] at e3
      rcases Finset.mem_union.1 e4 with e4 | e4
      · exact absurd ((h1.eqs i p).2 ⟨k', q', e3, e4⟩) hpm
      · obtain ⟨r1, r2⟩ := h2.row k' k p q' q e4 e2 (by rw [e1, e2e]; exact e3)
        rw [r1, r2]
  · intro i hi p hp
    rw [← hE1.idx] at hp
    by_cases hpm : p ∈ (G1.node (.var i)).matched
    · obtain ⟨k, q, e1, e2⟩ := (h1.vars i p).1 hpm
      refine ⟨(k, q), ⟨by rw [← hE1.var]; exact e1, Finset.mem_union_left _ e2⟩, ?_⟩
      rintro ⟨k', q'⟩ ⟨e3, e4⟩
      dsimp only at e3 e4
      rw [← hE1.var] at e3
      rcases Finset.mem_union.1 e4 with e4 | e4
      · obtain ⟨r1, r2⟩ := h1.col k' k q' q p e4 e2 (e3.trans e1.symm)
        rw [r1, r2]
      · have := (in2 k' q' p e4).2.2
        rw [e3, h1.part, Finset.mem_sdiff] at this
        exact absurd hpm this.2
    · have hpu : p ∈ (G2.node (.var i)).idx := by
        rw [hE2.idx]
        change p ∈ (G1.node (.var i)).unmatched
        rw [h1.part, Finset.mem_sdiff]
        exact ⟨hp, hpm⟩
      have hp2 : p ∈ (G2.node (.var i)).matched := by
        have := mv i (by change i < G1.nv; rw [hE1.nv]; exact hi)
        rw [h2.part] at this
        by_contra hc
        have : p ∈ (∅ : Finset Point) := by rw [← this, Finset.mem_sdiff]; exact ⟨hpu, hc⟩
        simp at this
      obtain ⟨k, q, e1, e2⟩ := (h2.vars i p).1 hp2
      refine ⟨(k, q), ⟨by rw [← hE1.var, ← e2v]; exact e1, Finset.mem_union_right _ e2⟩, ?_⟩
      rintro ⟨k', q'⟩ ⟨e3, e4⟩
      dsimp only at e3 e4
      rw [← hE1.var] at e3
      rcases Finset.mem_union.1 e4 with e4 | e4
      · exact absurd ((h1.vars i p).2 ⟨k', q', e3, e4⟩) hpm
      · obtain ⟨r1, r2⟩ := h2.col k' k q' q p e4 e2 (by rw [e1, e2v]; exact e3)
        rw [r1, r2]

theorem run_ok {solve : Solver} (hs : SolverOk solve) {scheds : Nat → Sched}
    (hS : ∀ n, SchedOk (scheds n)) {leaves : Bool} {order : List Vtx → List Vtx} {sfuel fuel : Nat}
    {G : Graph} (hG : Valid G) {m : Nat → Mat} {log : List Step}
    (h : run solve leaves order scheds sfuel fuel G = some (true, m, log))
    (hn : ∀ t ∈ log, (nodes t).Nodup) : Perfect G m := by
  unfold run at h
  simp only [Option.bind_eq_some_iff, Option.map_eq_some_iff, Prod.mk.injEq] at h
  obtain ⟨G1, h1, ⟨b, G2, log'⟩, h2, h3, rfl, h4⟩ := h
  have hG1 : Valid G1 ∧ SameShape G G1 := by
    split_ifs at h1
    · exact matchLeafNodes_ok hs hG h1
    · simp only [Option.some.injEq] at h1
      subst h1
      exact ⟨hG, .refl _⟩
  dsimp only at h3 h4
  subst h4
  obtain ⟨h5, h6, h7⟩ := applyHK_ok hs hS (fresh_valid (unmatchedGraph_fresh hG1.1)) h2 hn
  exact perfect_of_allMatched hG1.2 hG1.1 h6 h5 (h7 ▸ h3)

/-! ### Systems of scalars -/

theorem path_cands {G : Graph} (hG : Valid G) {p : Step} (hp : IsPath G p) (hne : p.cands ≠ ∅) :
    ∀ (n : Vtx) (c : Finset Point), (∀ v, (G.node v).idx.card ≤ 1) → c ⊆ (G.node n).idx → c ≠ ∅ →
      p.contains n c = false → n ∉ nodes p := by
  have hx : ∀ (v : Vtx) (a b : Finset Point), (∀ v, (G.node v).idx.card ≤ 1) →
      a ⊆ (G.node v).idx → b ⊆ (G.node v).idx → a ≠ ∅ → b ≠ ∅ → a = b := by
    intro v a b hc ha hb h1 h2
    have e1 := Finset.eq_of_subset_of_card_le ha
      ((hc v).trans (Finset.card_pos.2 (Finset.nonempty_iff_ne_empty.2 h1)))
    have e2 := Finset.eq_of_subset_of_card_le hb
      ((hc v).trans (Finset.card_pos.2 (Finset.nonempty_iff_ne_empty.2 h2)))
    rw [e1, e2]
  have prevNe : ∀ {flow : Mat} {a b : Finset Point}, flow ≠ ∅ → (flow.eqsOf ⊆ a → a ≠ ∅) ∧
      (flow.varsOf ⊆ a → a ≠ ∅) := by
    intro flow a b hf
    obtain ⟨x, hx⟩ := Finset.nonempty_iff_ne_empty.2 hf
    constructor
    · rintro h rfl
      have := h (mem_eqsOf.2 ⟨x.2, hx⟩)
      simp at this
    · rintro h rfl
      have := h (mem_varsOf.2 ⟨x.1, hx⟩)
      simp at this
  induction hp with
  | @root i c' h =>
    intro n c hc hcn hcne hcon hn
    simp only [nodes, List.mem_singleton] at hn
    subst hn
    simp only [Step.contains, true_and, decide_eq_false_iff_not] at hcon
    refine hcon (hx (.eq i) _ _ hc ?_ hcn hne hcne)
    refine h.trans ?_
    rw [hG.part]; exact Finset.sdiff_subset
  | @toVar prev k flow hp hn hs ho hl hcc ih =>
    intro n c hc hcn hcne hcon hmem
    simp only [Step.contains, Bool.or_eq_false_iff, decide_eq_false_iff_not] at hcon
    have hf : flow ≠ ∅ := by
      rintro rfl
      exact hne (by simp [Step.cands, varsOf])
    rcases List.mem_cons.1 hmem with rfl | hmem
    · refine hcon.1 ⟨rfl, hx _ _ _ hc ?_ hcn hne hcne⟩
      intro x hx'
      obtain ⟨q, hq⟩ := mem_varsOf.1 hx'
      have := hs hq
      rw [hG.unm, Finset.mem_sdiff] at this
      exact (hG.inc k _ _ this.1).2.2
    · exact ih ((prevNe (b := ∅) hf).1 hl) n c hc hcn hcne hcon.2 hmem
  | @toEq prev k flow hp hn hs ho hl hcc ih =>
    intro n c hc hcn hcne hcon hmem
    simp only [Step.contains, Bool.or_eq_false_iff, decide_eq_false_iff_not] at hcon
    have hf : flow ≠ ∅ := by
      rintro rfl
      exact hne (by simp [Step.cands, eqsOf])
    rcases List.mem_cons.1 hmem with rfl | hmem
    · refine hcon.1 ⟨rfl, hx _ _ _ hc ?_ hcn hne hcne⟩
      intro x hx'
      obtain ⟨q, hq⟩ := mem_eqsOf.1 hx'
      exact (hG.inc k _ _ (hG.sub k (hs hq))).2.1
    · exact ih ((prevNe (b := ∅) hf).2 hl) n c hc hcn hcne hcon.2 hmem

theorem path_nodup {G : Graph} (hG : Valid G) (hc : ∀ v, (G.node v).idx.card ≤ 1) {p : Step}
    (hp : IsPath G p) (hne : p.cands ≠ ∅) : (nodes p).Nodup := by
  induction hp with
  | root h => simp [nodes]
  | @toVar prev k flow hp hn hs ho hl hcc ih =>
    obtain ⟨x, hx⟩ := Finset.nonempty_iff_ne_empty.2 hne
    obtain ⟨q, hq⟩ := mem_varsOf.1 hx
    have hpne : prev.cands ≠ ∅ := Finset.nonempty_iff_ne_empty.1 ⟨q, hl (mem_eqsOf.2 ⟨x, hq⟩)⟩
    refine List.nodup_cons.2 ⟨path_cands hG hp hpne _ _ hc ?_ hne hcc, ih hpne⟩
    intro y hy
    obtain ⟨q, hq⟩ := mem_varsOf.1 hy
    have := hs hq
    rw [hG.unm, Finset.mem_sdiff] at this
    exact (hG.inc k _ _ this.1).2.2
  | @toEq prev k flow hp hn hs ho hl hcc ih =>
    obtain ⟨x, hx⟩ := Finset.nonempty_iff_ne_empty.2 hne
    obtain ⟨q, hq⟩ := mem_eqsOf.1 hx
    have hpne : prev.cands ≠ ∅ := Finset.nonempty_iff_ne_empty.1 ⟨q, hl (mem_varsOf.2 ⟨x, hq⟩)⟩
    refine List.nodup_cons.2 ⟨path_cands hG hp hpne _ _ hc ?_ hne hcc, ih hpne⟩
    intro y hy
    obtain ⟨q, hq⟩ := mem_eqsOf.1 hy
    exact (hG.inc k _ _ (hG.sub k (hs hq))).2.1

theorem candidate_nodup {G : Graph} (hG : Valid G) (hc : ∀ v, (G.node v).idx.card ≤ 1) {p : Step}
    (hp : Candidate G p) : (nodes p).Nodup := by
  cases p with
  | root n c => exact hp.elim
  | next prev k n c flow =>
    obtain ⟨h1, h2, rfl, h4, h5, h6, h7, h8, h9, h10, h11⟩ := hp
    obtain ⟨x, hx⟩ := Finset.nonempty_iff_ne_empty.2 h8
    have hpne : prev.cands ≠ ∅ :=
      Finset.nonempty_iff_ne_empty.1 ⟨x.1, h6 (mem_eqsOf.2 ⟨x.2, hx⟩)⟩
    have hcne : c ≠ ∅ := Finset.nonempty_iff_ne_empty.1 ⟨x.2, h9 (mem_varsOf.2 ⟨x.1, hx⟩)⟩
    refine List.nodup_cons.2 ⟨path_cands hG h1 hpne _ _ hc ?_ hcne h10, path_nodup hG hc h1 hpne⟩
    intro y hy
    obtain ⟨q, hq⟩ := mem_varsOf.1 (h11 hy)
    rw [hG.unm, Finset.mem_sdiff] at hq
    exact (hG.inc k _ _ hq.1).2.2

theorem hkLoop_nodup {solve : Solver} (hs : SolverOk solve) {scheds : Nat → Sched}
    (hS : ∀ n, SchedOk (scheds n)) (sfuel : Nat) :
    ∀ (fuel n : Nat) (s : Graph × Trav) (log : List Step) (r : Bool × Graph × List Step),
      Valid s.1 → TravOk s.1 s.2 → (∀ v, (s.1.node v).idx.card ≤ 1) →
      hkLoop solve scheds sfuel fuel n s log = some r → (∀ t ∈ log, (nodes t).Nodup) →
      ∀ t ∈ r.2.2, (nodes t).Nodup := by
  intro fuel
  induction fuel with
  | zero => intro n s log r _ _ _ h; simp [hkLoop] at h
  | succ fuel ih =>
    intro n s log r hV hT hc h hn
    unfold hkLoop at h
    simp only [Option.bind_eq_some_iff] at h
    obtain ⟨cs, hcs, h⟩ := h
    have hC := candidates_ok hs hT (hS n) hcs
    have hN : ∀ t ∈ cs, (nodes t).Nodup := fun t ht => candidate_nodup hV hc (hC t ht)
    have hA : ∀ t ∈ log ++ cs, (nodes t).Nodup := by
      intro t ht
      rcases List.mem_append.1 ht with ht | ht
      · exact hn t ht
      · exact hN t ht
    obtain ⟨h1, h2⟩ := augmentingPaths_ok (hS n) hC hN
    obtain ⟨h3, h4, h5⟩ := applyAll_ok hV hT h1 h2
    split_ifs at h
    · refine ih _ _ _ _ h3 h4 ?_ h hA
      intro v
      rw [show s = (s.1, s.2) from rfl, h5, (sameShape_applyMany _ _).idx]
      exact hc v
    · simp only [Option.some.injEq] at h
      subst h
      exact hA

theorem run_nodup {solve : Solver} (hs : SolverOk solve) {scheds : Nat → Sched}
    (hS : ∀ n, SchedOk (scheds n)) {leaves : Bool} {order : List Vtx → List Vtx} {sfuel fuel : Nat}
    {G : Graph} (hG : Valid G) (hc : ∀ v, (G.node v).idx.card ≤ 1) {r : Bool × (Nat → Mat) × List Step}
    (h : run solve leaves order scheds sfuel fuel G = some r) :
    ∀ t ∈ r.2.2, (nodes t).Nodup := by
  unfold run at h
  simp only [Option.bind_eq_some_iff, Option.map_eq_some_iff] at h
  obtain ⟨G1, h1, ⟨b, G2, log'⟩, h2, rfl⟩ := h
  have hG1 : Valid G1 ∧ SameShape G G1 := by
    split_ifs at h1
    · exact matchLeafNodes_ok hs hG h1
    · simp only [Option.some.injEq] at h1
      subst h1
      exact ⟨hG, .refl _⟩
  unfold applyHK at h2
  split_ifs at h2
  · simp only [Option.some.injEq, Prod.mk.injEq] at h2
    obtain ⟨_, _, rfl⟩ := h2
    simp
  · refine hkLoop_nodup hs hS sfuel _ _ _ _ _ (fresh_valid (unmatchedGraph_fresh hG1.1))
      (initialTrav_ok _) ?_ h2 (by simp)
    intro v
    change (G1.node v).unmatched.card ≤ 1
    rw [hG1.1.part]
    refine (Finset.card_le_card Finset.sdiff_subset).trans ?_
    rw [hG1.2.idx]
    exact hc v

end Matching
end Marco
