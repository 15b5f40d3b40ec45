import Verif.Lemmas.TreeInv

/-! Helper lemmas on the leaves of a tree and on what the updates do to them. -/

namespace Marco
open Spec

namespace Node

mutual
/-- The leaves of a tree, left to right. -/
def leafNodes : Node → List Node
  | .mk i b ch obs => match ch with
    | [] => [.mk i b [] obs]
    | c :: cs => leafNodesL (c :: cs)
/-- The same for a list of trees. -/
def leafNodesL : List Node → List Node
  | [] => []
  | c :: cs => leafNodes c ++ leafNodesL cs
end

theorem leafNodes_leaf {n : Node} (h : n.ch = []) : n.leafNodes = [n] := by
  cases n with
  | mk i b ch obs =>
    simp only [ch_mk] at h
    subst h
    rw [leafNodes]

theorem leafNodes_inner {n : Node} (h : n.ch ≠ []) : n.leafNodes = leafNodesL n.ch := by
  cases n with
  | mk i b ch obs =>
    cases ch with
    | nil => exact absurd rfl h
    | cons c cs => rw [leafNodes, ch_mk]

theorem leafNodesL_append (a b : List Node) :
    leafNodesL (a ++ b) = leafNodesL a ++ leafNodesL b := by
  induction a with
  | nil => simp [leafNodesL]
  | cons c a ih => simp [leafNodesL, ih]

theorem leafNodesL_eq (l : List Node) : leafNodesL l = l.flatMap leafNodes := by
  induction l with
  | nil => simp [leafNodesL]
  | cons c a ih => simp [leafNodesL, ih]

/-- The addresses and the objects of the leaves. -/
def leaves (n : Node) : List (Nat × List Box) := n.leafNodes.map fun m => (m.id, m.obs)

/-- The same for a list of trees. -/
def leavesL (l : List Node) : List (Nat × List Box) := (leafNodesL l).map fun m => (m.id, m.obs)

theorem leaves_leaf {n : Node} (h : n.ch = []) : n.leaves = [(n.id, n.obs)] := by
  rw [leaves, leafNodes_leaf h]; rfl

theorem leaves_inner {n : Node} (h : n.ch ≠ []) : n.leaves = leavesL n.ch := by
  rw [leaves, leafNodes_inner h]; rfl

theorem leavesL_append (a b : List Node) : leavesL (a ++ b) = leavesL a ++ leavesL b := by
  simp [leavesL, leafNodesL_append]

theorem leavesL_cons (c : Node) (l : List Node) : leavesL (c :: l) = c.leaves ++ leavesL l := by
  simp [leavesL, leafNodesL, leaves]

theorem leavesL_nil : leavesL [] = [] := rfl

theorem leavesL_perm {a b : List Node} (h : a.Perm b) : (leavesL a).Perm (leavesL b) := by
  rw [leavesL, leavesL, leafNodesL_eq, leafNodesL_eq]
  exact (h.flatMap_right _).map _

theorem leaves_bd (i : Nat) (b b' : Box) (ch : List Node) (obs : List Box) :
    (Node.mk i b ch obs).leaves = (Node.mk i b' ch obs).leaves := by
  by_cases h : ch = []
  · rw [leaves_leaf (by exact h), leaves_leaf (by exact h)]; rfl
  · rw [leaves_inner (by exact h), leaves_inner (by exact h)]; rfl

/-- The objects are those of the leaves. -/
theorem mem_objects_leafNodes : ∀ (n : Node) (o : Box),
    o ∈ n.objects ↔ ∃ m ∈ n.leafNodes, o ∈ m.obs := by
  intro n
  induction n using Node.ind with
  | h n ih =>
    intro o
    by_cases h : n.ch = []
    · rw [objects_leaf h, leafNodes_leaf h]; simp
    · rw [objects_inner h, leafNodes_inner h, mem_objectsL, leafNodesL_eq]
      simp only [List.mem_flatMap]
      constructor
      · rintro ⟨c, hc, ho⟩
        obtain ⟨m, hm, ho⟩ := (ih c hc o).1 ho
        exact ⟨m, ⟨c, hc, hm⟩, ho⟩
      · rintro ⟨m, ⟨c, hc, hm⟩, ho⟩
        exact ⟨c, hc, (ih c hc o).2 ⟨m, hm, ho⟩⟩

theorem mem_objects_leaves (n : Node) (o : Box) :
    o ∈ n.objects ↔ ∃ x ∈ n.leaves, o ∈ x.2 := by
  rw [mem_objects_leafNodes, leaves]
  simp

/-- The addresses of the leaves are addresses of the tree, each once. -/
theorem leafNodes_sublist : ∀ n : Node, (n.leafNodes.map Node.id).Sublist n.ids := by
  intro n
  induction n using Node.ind with
  | h n ih =>
    by_cases h : n.ch = []
    · rw [leafNodes_leaf h, ids_eq, h]; simp [idsL]
    · rw [leafNodes_inner h, ids_eq]
      refine List.Sublist.cons _ ?_
      generalize n.ch = l at ih
      induction l with
      | nil => simp [leafNodesL, idsL]
      | cons c l ihl =>
        simp only [leafNodesL, idsL, List.map_append]
        exact (ih c (by simp)).append (ihl fun d hd => ih d (by simp [hd]))

theorem leaves_fst (n : Node) : n.leaves.map Prod.fst = n.leafNodes.map Node.id := by
  simp [leaves]

theorem leaves_nodup {n : Node} (h : n.ids.Nodup) : (n.leaves.map Prod.fst).Nodup := by
  rw [leaves_fst]
  exact h.sublist (leafNodes_sublist n)

theorem leaf_ids {n : Node} {x : Nat × List Box} (h : x ∈ n.leaves) : x.1 ∈ n.ids := by
  refine (leafNodes_sublist n).subset ?_
  rw [← leaves_fst]
  exact List.mem_map_of_mem h

end Node

namespace RTree

/-- The leaves of the siblings on the path. -/
def ctxLeaves : Ctx → List (Nat × List Box)
  | [] => []
  | f :: ctx => Node.leavesL f.left ++ Node.leavesL f.right ++ ctxLeaves ctx

theorem fill_leaves (f : Frame) (n : Node) :
    (f.fill n).leaves.Perm (n.leaves ++ (Node.leavesL f.left ++ Node.leavesL f.right)) := by
  rw [Node.leaves_inner (by simp [Frame.fill, Node.ch]), Frame.fill, Node.ch_mk, Node.leavesL_append,
    Node.leavesL_cons, ← List.append_assoc, ← List.append_assoc]
  exact List.Perm.append_right _ List.perm_append_comm

theorem plug_leaves : ∀ (ctx : Ctx) (n : Node), (plug ctx n).leaves.Perm (n.leaves ++ ctxLeaves ctx)
  | [], n => by simp [plug, ctxLeaves]
  | f :: ctx, n => by
    rw [plug, ctxLeaves]
    refine (plug_leaves ctx _).trans ?_
    rw [← List.append_assoc]
    exact (fill_leaves f n).append_right _

theorem updateBoundaries_leaves : ∀ {ctx : Ctx} {n t : Node}, updateBoundaries ctx n = .ok t →
    t.leaves.Perm (n.leaves ++ ctxLeaves ctx)
  | ctx, n, t, hu => by
    unfold updateBoundaries at hu
    split at hu
    · simp at hu
    · rename_i b hb
      have hl : (Node.mk n.id b n.ch n.obs).leaves = n.leaves := by
        cases n with
        | mk i b' ch obs => exact Node.leaves_bd ..
      split at hu
      · simp only [Except.ok.injEq] at hu
        subst hu
        exact plug_leaves _ _
      · split at hu
        · simp only [Except.ok.injEq] at hu
          subst hu
          rw [hl]; simp [ctxLeaves]
        · rename_i _ f ctx
          refine (updateBoundaries_leaves hu).trans ?_
          rw [ctxLeaves, ← List.append_assoc, ← hl]
          exact (fill_leaves f _).append_right _

theorem mkNode_leaves_leaf {i : Nat} {obs : List Box} {x : Node} (h : mkNode i [] obs = some x) :
    x.leaves = [(i, obs)] := by
  obtain ⟨b, -, rfl⟩ := mkNode_some h
  exact Node.leaves_leaf rfl

theorem mkNode_leaves_inner {i : Nat} {ch : List Node} {x : Node} (h : mkNode i ch [] = some x) :
    x.ch ≠ [] ∧ x.leaves = Node.leavesL ch := by
  obtain ⟨b, h1, rfl⟩ := mkNode_some h
  have hne : ch ≠ [] := by
    intro he
    rw [he] at h1
    simp [computeBoundary, Node.isLeaf, Node.ch, Node.obs, mbrList] at h1
  exact ⟨hne, Node.leaves_inner hne⟩

/-- The leaves made by a split: the same ones if the node is not a leaf, and otherwise two that share
the objects. -/
theorem splitNode_leaves {C : Cfg} (hC : C.Sound) {i1 i2 : Nat} {n a b : Node} (hf : C.mx < n.fanOut)
    (hs : splitNode C i1 i2 n = .ok (a, b)) :
    (n.ch ≠ [] → (a.leaves ++ b.leaves).Perm n.leaves) ∧
    ∀ x ∈ a.leaves ++ b.leaves, ∀ o ∈ x.2, o ∈ n.objects := by
  unfold splitNode at hs
  unfold Node.fanOut at hf
  split at hs
  · rename_i hl
    rw [if_pos hl] at hf
    have hch : n.ch = [] := by simpa [Node.isLeaf] using hl
    simp only [except_bind_ok, orUb_ok, Except.ok.injEq, Prod.mk.injEq] at hs
    obtain ⟨⟨g1, g2⟩, s1, x, hx, y, hy, rfl, rfl⟩ := hs
    have hp := hC.obs _ _ _ hf s1
    refine ⟨fun h => absurd hch h, ?_⟩
    rw [mkNode_leaves_leaf hx, mkNode_leaves_leaf hy, Node.objects_leaf hch]
    intro z hz o ho
    simp only [List.cons_append, List.nil_append, List.mem_cons, List.not_mem_nil, or_false] at hz
    refine hp.mem_iff.1 ?_
    rcases hz with rfl | rfl
    · simp [ho]
    · simp [ho]
  · rename_i hl
    have hch : n.ch ≠ [] := by simpa [Node.isLeaf] using hl
    rw [if_neg hl] at hf
    simp only [except_bind_ok, orUb_ok, Except.ok.injEq, Prod.mk.injEq] at hs
    obtain ⟨⟨g1, g2⟩, s1, x, hx, y, hy, rfl, rfl⟩ := hs
    have hp := hC.ch _ _ _ hf s1
    have hperm : (x.leaves ++ y.leaves).Perm n.leaves := by
      rw [(mkNode_leaves_inner hx).2, (mkNode_leaves_inner hy).2, Node.leaves_inner hch,
        ← Node.leavesL_append]
      exact Node.leavesL_perm hp
    refine ⟨fun _ => hperm, fun z hz o ho => ?_⟩
    exact (Node.mem_objects_leaves _ _).2 ⟨z, hperm.mem_iff.1 hz, ho⟩

/-- A split leaves the other leaves as they are. -/
theorem splitUp_leaves {C : Cfg} (hC : C.Sound) : ∀ {ctx : Ctx} {next next' : Nat} {n t : Node},
    splitUp C next ctx n = .ok (t, next') →
    ∃ G, t.leaves.Perm (G ++ ctxLeaves ctx) ∧ (n.ch ≠ [] → G.Perm n.leaves) ∧
      ∀ x ∈ G, ∀ o ∈ x.2, o ∈ n.objects
  | [], next, next', n, t, hs => by
    rw [splitUp] at hs
    split at hs
    · rename_i hf
      rw [except_bind_ok] at hs
      obtain ⟨⟨a, b⟩, h1, h2⟩ := hs
      simp only [Except.ok.injEq, Prod.mk.injEq] at h2
      obtain ⟨rfl, rfl⟩ := h2
      obtain ⟨g1, g2⟩ := splitNode_leaves hC hf h1
      refine ⟨a.leaves ++ b.leaves, ?_, g1, g2⟩
      rw [Node.leaves_inner (by simp [Node.ch_mk])]
      simp [Node.ch_mk, Node.leavesL_cons, Node.leavesL_nil, ctxLeaves]
    · simp only [Except.ok.injEq, Prod.mk.injEq] at hs
      obtain ⟨rfl, rfl⟩ := hs
      exact ⟨n.leaves, by simp [ctxLeaves], fun _ => .refl _,
        fun x hx o ho => (Node.mem_objects_leaves _ _).2 ⟨x, hx, ho⟩⟩
  | f :: ctx, next, next', n, t, hs => by
    rw [splitUp] at hs
    split at hs
    · rename_i hf
      rw [except_bind_ok] at hs
      obtain ⟨⟨a, b⟩, h1, h2⟩ := hs
      simp only at h2
      have h2' : ∃ p', (if (Node.mk f.id f.bd (f.left ++ a :: (f.right ++ [b])) f.obs).fanOut ≤ C.mx
          then recalc (.mk f.id f.bd (f.left ++ a :: (f.right ++ [b])) f.obs)
          else .ok (.mk f.id f.bd (f.left ++ a :: (f.right ++ [b])) f.obs)) = .ok p' ∧
          splitUp C (next + 1) ctx p' = .ok (t, next') := by
        split at h2
        · rename_i hif; rw [if_pos hif]; exact except_bind_ok.1 h2
        · rename_i hif; rw [if_neg hif]; exact except_bind_ok.1 h2
      obtain ⟨p', h3, h4⟩ := h2'
      obtain ⟨g1, g2⟩ := splitNode_leaves hC hf h1
      have hch : p'.ch = f.left ++ a :: (f.right ++ [b]) := by
        split at h3
        · obtain ⟨bd, -, rfl⟩ := recalc_ok.1 h3
          rfl
        · simp only [Except.ok.injEq] at h3
          subst h3
          rfl
      have hne : p'.ch ≠ [] := by rw [hch]; simp
      have hpl : p'.leaves.Perm (a.leaves ++ b.leaves ++
          (Node.leavesL f.left ++ Node.leavesL f.right)) := by
        rw [Node.leaves_inner hne, hch]
        simp only [Node.leavesL_append, Node.leavesL_cons, Node.leavesL_nil, List.append_nil]
        rw [List.perm_iff_count]
        intro x
        simp only [List.count_append]
        omega
      obtain ⟨G, i1, i2, -⟩ := splitUp_leaves hC h4
      refine ⟨a.leaves ++ b.leaves, i1.trans ?_, g1, g2⟩
      rw [ctxLeaves, ← List.append_assoc]
      exact ((i2 hne).trans hpl).append_right _
    · rw [except_bind_ok] at hs
      obtain ⟨t', h1, h2⟩ := hs
      simp only [Except.ok.injEq, Prod.mk.injEq] at h2
      obtain ⟨rfl, rfl⟩ := h2
      refine ⟨n.leaves, (updateBoundaries_leaves h1).trans ?_, fun _ => .refl _,
        fun x hx o ho => (Node.mem_objects_leaves _ _).2 ⟨x, hx, ho⟩⟩
      rw [ctxLeaves, ← List.append_assoc]
      exact (fill_leaves f n).append_right _

/-- Adjusting a leaf that has enough objects leaves the other leaves as they are. -/
theorem adjustTree_leaves {C : Cfg} (hC : C.Sound) {fuel next next' : Nat} {ctx : Ctx} {n : Node}
    {r : Option Node} (hm : C.mn ≤ n.fanOut) (h0 : n.fanOut ≠ 0)
    (ha : adjustTree C fuel next ctx n = .ok (r, next')) :
    ∃ t G, r = some t ∧ t.leaves.Perm (G ++ ctxLeaves ctx) ∧ ∀ x ∈ G, ∀ o ∈ x.2, o ∈ n.objects := by
  have hupd : ∀ t, updateBoundaries ctx n = .ok t → ∃ t' G, some t = some t' ∧
      t'.leaves.Perm (G ++ ctxLeaves ctx) ∧ ∀ x ∈ G, ∀ o ∈ x.2, o ∈ n.objects := fun t hu =>
    ⟨t, n.leaves, rfl, updateBoundaries_leaves hu,
      fun x hx o ho => (Node.mem_objects_leaves _ _).2 ⟨x, hx, ho⟩⟩
  have hspl : ∀ t k, splitUp C next ctx n = .ok (t, k) → ∃ t' G, some t = some t' ∧
      t'.leaves.Perm (G ++ ctxLeaves ctx) ∧ ∀ x ∈ G, ∀ o ∈ x.2, o ∈ n.objects := by
    intro t k hs
    obtain ⟨G, g1, -, g3⟩ := splitUp_leaves hC hs
    exact ⟨t, G, rfl, g1, g3⟩
  have hs2 : ∀ {x : Res (Node × Nat)}, (do let (t, next) ← x; .ok (some t, next)) = .ok (r, next') →
      ∃ t k, x = .ok (t, k) ∧ r = some t := by
    intro x h
    rw [except_bind_ok] at h
    obtain ⟨⟨t, k⟩, h1, h2⟩ := h
    simp only [Except.ok.injEq, Prod.mk.injEq] at h2
    exact ⟨t, k, h1, h2.1.symm⟩
  have hs1 : ∀ {x : Res Node}, (do let t ← x; .ok (some t, next)) = .ok (r, next') →
      ∃ t, x = .ok t ∧ r = some t := by
    intro x h
    rw [except_bind_ok] at h
    obtain ⟨t, h1, h2⟩ := h
    simp only [Except.ok.injEq, Prod.mk.injEq] at h2
    exact ⟨t, h1, h2.1.symm⟩
  unfold adjustTree at ha
  split at ha
  · split at ha
    · obtain ⟨t, k, h1, rfl⟩ := hs2 ha
      exact hspl t k h1
    · obtain ⟨t, h1, rfl⟩ := hs1 ha
      exact hupd t h1
  · rw [if_neg (by omega)] at ha
    split at ha
    · obtain ⟨t, k, h1, rfl⟩ := hs2 ha
      exact hspl t k h1
    · obtain ⟨t, h1, rfl⟩ := hs1 ha
      exact hupd t h1

/-- Adjusting a leaf that has enough objects has a result. -/
theorem adjustTree_total {C : Cfg} (hC : AnyChoice C) {fuel next : Nat} {ctx : Ctx} {n : Node}
    (hm : C.mn ≤ n.fanOut) : ∃ r, adjustTree C fuel next ctx n = .ok r := by
  have h1 := hC.mn
  have hne : n.ch ≠ [] ∨ n.obs ≠ [] := ne_of_fanOut (by omega)
  obtain ⟨⟨t, k⟩, hs⟩ := splitUp_ok hC (ctx := ctx) (next := next) hne
  obtain ⟨t', hu⟩ := updateBoundaries_ok (ctx := ctx) hne
  unfold adjustTree
  rw [hs, hu, if_neg (show n.fanOut ≠ 0 by omega), if_neg (show ¬ n.fanOut < C.mn by omega)]
  split
  · split <;> exact ⟨_, rfl⟩
  · split <;> exact ⟨_, rfl⟩

mutual
theorem locate_of_mem : ∀ {j : Nat} {t : Node}, j ∈ t.ids → ∃ x, locate j t = some x
  | j, .mk i b ch obs, h => by
    rw [Node.ids_eq] at h
    simp only [Node.id_mk, Node.ch_mk, List.mem_cons] at h
    rw [locate]
    split
    · exact ⟨_, rfl⟩
    · rename_i hi
      obtain ⟨x, hx⟩ := locateL_of_mem (h.resolve_left fun e => hi e.symm)
      rw [hx]
      exact ⟨_, rfl⟩
theorem locateL_of_mem : ∀ {j : Nat} {l : List Node}, j ∈ Node.idsL l → ∃ x, locateL j l = some x
  | j, [], h => by simp [Node.idsL] at h
  | j, c :: cs, h => by
    simp only [Node.idsL, List.mem_append] at h
    rw [locateL]
    split
    · exact ⟨_, rfl⟩
    · rename_i hc
      have : j ∉ c.ids := fun hm => by
        obtain ⟨x, hx⟩ := locate_of_mem hm
        rw [hc] at hx
        cases hx
      obtain ⟨x, hx⟩ := locateL_of_mem (h.resolve_left this)
      rw [hx]
      exact ⟨_, rfl⟩
end

/-- The leaves found by the walk. -/
theorem overlappingLeaves_eq (q : Box) : ∀ (fuel : Nat) (st : List Node), Node.weightL st ≤ fuel →
    overlappingLeaves q fuel st =
      ((Node.leafNodesL st).filter fun m => m.bd.overlaps q).map Node.id
  | 0, st, hf => by
    cases st with
    | nil => rfl
    | cons n st =>
      simp only [Node.weightL] at hf
      have := n.weight_pos
      omega
  | fuel + 1, [], _ => rfl
  | fuel + 1, n :: st, hf => by
    have hw : Node.weightL (n.ch ++ st) ≤ fuel := by
      rw [Node.weightL_append]
      simp only [Node.weightL, Node.weight_eq] at hf
      omega
    rw [overlappingLeaves, overlappingLeaves_eq q fuel _ hw, Node.leafNodesL_append, Node.leafNodesL]
    by_cases hl : n.ch = []
    · rw [Node.leafNodes_leaf hl, hl]
      simp only [Node.isLeaf, hl, List.isEmpty_nil, Bool.and_true, Node.leafNodesL, List.nil_append,
        List.cons_append, List.filter_cons]
      split <;> simp
    · rw [Node.leafNodes_inner hl]
      simp [Node.isLeaf, hl]

end RTree
end Marco
