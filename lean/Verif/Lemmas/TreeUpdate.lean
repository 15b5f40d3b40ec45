import Verif.Lemmas.TreeZipper

/-! Helper lemmas on the updates of a tree that do not collapse nodes. -/

namespace Marco
namespace RTree
open Spec

variable {lab : Nat → Nat} {E : Nat → Prop} {k : Nat}

/-- A tree satisfying the invariant, with different identities below `next`. -/
structure TreeOk (lab : Nat → Nat) (E : Nat → Prop) (k H next : Nat) (t : Node) : Prop where
  wf : Wf lab E k H t
  nodup : t.ids.Nodup
  lt : ∀ i ∈ t.ids, i < next

/-- What an update of a tree guarantees; `objs` are the expected objects and `ids` the identities that
are not new. -/
def Post (lab : Nat → Nat) (E : Nat → Prop) (k next : Nat) (ids : List Nat) (objs : List Box)
    (t : Node) (next' : Nat) : Prop :=
  ∃ lab' H, (∀ i < next, lab' i = lab i) ∧ next ≤ next' ∧ TreeOk lab' E k H next' t ∧
    t.objects.Perm objs ∧ ∀ i ∈ t.ids, i < next → i ∈ ids

theorem Wf.objects_ranked {h : Nat} {n : Node} (hw : Wf lab E k h n) : ∀ o ∈ n.objects, Ranked k o := by
  induction h generalizing n with
  | zero => rw [Node.objects_leaf hw.2.1]; exact hw.2.2.2
  | succ h ih =>
    rw [Node.objects_inner hw.2.2.1]
    intro o ho
    obtain ⟨c, hc, ho⟩ := (Node.mem_objectsL _ _).1 ho
    exact ih (hw.2.2.2 c hc) o ho

/-! ### Boundaries -/

theorem objects_bd (i i' : Nat) (b b' : Box) (ch : List Node) (obs : List Box) :
    (Node.mk i b ch obs).objects = (Node.mk i' b' ch obs).objects := by
  cases ch <;> simp [Node.objects]

theorem updateBoundaries_spec : ∀ {ctx : Ctx} {h : Nat} {n t : Node}, CtxWf lab E k h ctx →
    CtxEx E n.bd ctx → Pre lab E k h n → updateBoundaries ctx n = .ok t →
    Wf lab E k (h + ctx.length) t ∧ t.objects.Perm (n.objects ++ ctxObjs ctx) ∧
      t.ids.Perm (n.ids ++ ctxIds ctx)
  | ctx, h, n, t, hc, he, hn, hu => by
    unfold updateBoundaries at hu
    split at hu
    · simp at hu
    · rename_i b hb
      split at hu
      · rename_i hbd
        simp only [Except.ok.injEq] at hu
        subst hu
        exact ⟨wf_plug hc he (hn.wf' (by rw [hb, hbd])), plug_objects _ _, plug_ids _ _⟩
      · have hobj : (Node.mk n.id b n.ch n.obs).objects = n.objects := by
          cases n with
          | mk i b' ch obs => exact objects_bd ..
        have hids : (Node.mk n.id b n.ch n.obs).ids = n.ids := by simp [Node.ids_eq, Node.id, Node.ch]
        split at hu
        · simp only [Except.ok.injEq] at hu
          subst hu
          exact ⟨hn.wf hb, by simp [ctxObjs, hobj], by simp [ctxIds, hids]⟩
        · rename_i _ f ctx
          obtain ⟨i1, i2, i3⟩ := updateBoundaries_spec (ctx := ctx) (n := f.fill (.mk n.id b n.ch n.obs))
            hc.2 he.2 (hc.fill_pre (hn.wf hb)) hu
          refine ⟨by rw [List.length_cons]; rwa [Nat.add_assoc, Nat.add_comm 1] at i1, i2.trans ?_, i3.trans ?_⟩
          · rw [fill_objects, hobj, ctxObjs, ← List.append_assoc]
            refine List.Perm.append_right _ ?_
            rw [← List.append_assoc]
            exact List.Perm.append_right _ List.perm_append_comm
          · have a := plug_ids [f] (Node.mk n.id b n.ch n.obs)
            simp only [plug, ctxIds, List.append_nil, hids] at a
            have := a.append_right (ctxIds ctx)
            rwa [List.append_assoc] at this

theorem updateBoundaries_ok : ∀ {ctx : Ctx} {n : Node}, n.ch ≠ [] ∨ n.obs ≠ [] →
    ∃ t, updateBoundaries ctx n = .ok t
  | ctx, n, hn => by
    unfold updateBoundaries
    obtain ⟨b, hb⟩ := computeBoundary_isSome hn
    rw [hb]
    simp only
    split
    · exact ⟨_, rfl⟩
    · cases ctx with
      | nil => exact ⟨_, rfl⟩
      | cons f ctx => exact updateBoundaries_ok (.inl (by simp [Frame.fill, Node.ch]))

/-! ### Splits -/

/-- The groups of a split are a partition of the entries. -/
structure Cfg.Sound (C : Cfg) : Prop where
  obs : ∀ l a b, C.mx < l.length → C.splitObs l = some (a, b) → (a ++ b).Perm l
  ch : ∀ l a b, C.mx < l.length → C.splitCh l = some (a, b) → (a ++ b).Perm l

theorem objectsL_perm {a b : List Node} (h : a.Perm b) :
    (Node.objectsL a).Perm (Node.objectsL b) := by
  rw [Node.objectsL_eq_flatMap, Node.objectsL_eq_flatMap]
  exact h.flatMap_right _

theorem idsL_perm {a b : List Node} (h : a.Perm b) : (Node.idsL a).Perm (Node.idsL b) := by
  have e : ∀ l : List Node, Node.idsL l = l.flatMap Node.ids := by
    intro l
    induction l with
    | nil => simp [Node.idsL]
    | cons a l ih => simp [Node.idsL, ih]
  rw [e, e]
  exact h.flatMap_right _

theorem mkNode_some {i : Nat} {ch : List Node} {obs : List Box} {x : Node}
    (h : mkNode i ch obs = some x) :
    ∃ b, computeBoundary (.mk i [] ch obs) = some b ∧ x = .mk i b ch obs := by
  unfold mkNode at h
  rw [Option.map_eq_some_iff] at h
  obtain ⟨b, h1, h2⟩ := h
  exact ⟨b, h1, h2.symm⟩

/-- A new leaf. -/
theorem mkNode_leaf {i : Nat} {obs : List Box} {x : Node} (hl : lab i = 0)
    (ho : ∀ o ∈ obs, Ranked k o) (h : mkNode i [] obs = some x) :
    Wf lab E k 0 x ∧ x.id = i ∧ x.ch = [] ∧ x.obs = obs := by
  obtain ⟨b, h1, rfl⟩ := mkNode_some h
  refine ⟨⟨⟨hl, ?_, .inr h1⟩, rfl, ?_, ho⟩, rfl, rfl, rfl⟩
  · exact mbrList_ranked ho h1
  · intro he
    change obs = [] at he
    rw [he] at h1
    simp [computeBoundary, Node.isLeaf, Node.ch, Node.obs, mbrList] at h1

/-- A new inner node. -/
theorem mkNode_inner {i h : Nat} {ch : List Node} {x : Node} (hl : lab i = h + 1)
    (hc : ∀ c ∈ ch, Wf lab E k h c) (hx : mkNode i ch [] = some x) :
    Wf lab E k (h + 1) x ∧ x.id = i ∧ x.ch = ch ∧ x.obs = [] := by
  obtain ⟨b, h1, rfl⟩ := mkNode_some hx
  have hne : ch ≠ [] := by
    intro he
    rw [he] at h1
    simp [computeBoundary, Node.isLeaf, Node.ch, Node.obs, mbrList] at h1
  refine ⟨⟨⟨hl, ?_, .inr h1⟩, rfl, hne, hc⟩, rfl, rfl, rfl⟩
  unfold computeBoundary at h1
  rw [if_neg (by simp [Node.isLeaf, Node.ch, hne])] at h1
  refine mbrList_ranked ?_ h1
  intro o ho
  obtain ⟨c, hc', rfl⟩ := List.mem_map.1 ho
  exact (hc c hc').top.rank

theorem splitNode_spec {C : Cfg} (hC : C.Sound) {i1 i2 h : Nat} {n a b : Node} (hn : Pre lab E k h n)
    (hf : C.mx < n.fanOut) (h1 : lab i1 = h) (h2 : lab i2 = h) (hs : splitNode C i1 i2 n = .ok (a, b)) :
    Wf lab E k h a ∧ Wf lab E k h b ∧ a.id = i1 ∧ b.id = i2 ∧
      (a.objects ++ b.objects).Perm n.objects ∧
      (Node.idsL a.ch ++ Node.idsL b.ch).Perm (Node.idsL n.ch) := by
  unfold splitNode at hs
  unfold Node.fanOut at hf
  cases h with
  | zero =>
    rw [if_pos (by simp [Node.isLeaf, hn.2.2.1])] at hs hf
    simp only [except_bind_ok, orUb_ok, Except.ok.injEq, Prod.mk.injEq] at hs
    obtain ⟨⟨g1, g2⟩, s1, x, hx, y, hy, rfl, rfl⟩ := hs
    have hp := hC.obs _ _ _ hf s1
    have hr : ∀ o ∈ g1 ++ g2, Ranked k o := fun o ho => hn.2.2.2 o (hp.mem_iff.1 ho)
    obtain ⟨w1, e1, c1, o1⟩ := mkNode_leaf (E := E) h1 (fun o ho => hr o (by simp [ho])) hx
    obtain ⟨w2, e2, c2, o2⟩ := mkNode_leaf (E := E) h2 (fun o ho => hr o (by simp [ho])) hy
    refine ⟨w1, w2, e1, e2, ?_, ?_⟩
    · rw [Node.objects_leaf c1, Node.objects_leaf c2, Node.objects_leaf hn.2.2.1, o1, o2]
      exact hp
    · rw [c1, c2, hn.2.2.1]; simp [Node.idsL]
  | succ h =>
    split at hs
    · rename_i hl
      rw [if_pos hl, hn.2.2.1] at hf
      simp at hf
    · rename_i hl
      have hch : n.ch ≠ [] := by simpa [Node.isLeaf] using hl
      rw [if_neg hl] at hf
      simp only [except_bind_ok, orUb_ok, Except.ok.injEq, Prod.mk.injEq] at hs
      obtain ⟨⟨g1, g2⟩, s1, x, hx, y, hy, rfl, rfl⟩ := hs
      have hp := hC.ch _ _ _ hf s1
      have hr : ∀ c ∈ g1 ++ g2, Wf lab E k h c := fun c hc => hn.2.2.2 c (hp.mem_iff.1 hc)
      obtain ⟨w1, e1, c1, o1⟩ := mkNode_inner h1 (fun o ho => hr o (by simp [ho])) hx
      obtain ⟨w2, e2, c2, o2⟩ := mkNode_inner h2 (fun o ho => hr o (by simp [ho])) hy
      refine ⟨w1, w2, e1, e2, ?_, ?_⟩
      · rw [Node.objects_inner w1.2.2.1, Node.objects_inner w2.2.2.1, Node.objects_inner hch, c1, c2,
          ← Node.objectsL_append]
        exact objectsL_perm hp
      · rw [c1, c2, ← Node.idsL_append]
        exact idsL_perm hp

theorem fanOut_eq_zero {n : Node} : n.fanOut = 0 ↔ n.ch = [] ∧ n.obs = [] := by
  unfold Node.fanOut
  split
  · rename_i h
    have : n.ch = [] := by simpa [Node.isLeaf] using h
    simp [this]
  · rename_i h
    have : n.ch ≠ [] := by simpa [Node.isLeaf] using h
    simp [this]

theorem ne_of_fanOut {n : Node} (h : n.fanOut ≠ 0) : n.ch ≠ [] ∨ n.obs ≠ [] := by
  by_contra hc
  push Not at hc
  exact h (fanOut_eq_zero.2 hc)

/-- The parent after the split of a child. -/
theorem split_parent_objects {f : Frame} {n a b : Node} {bd : Box}
    (h : (a.objects ++ b.objects).Perm n.objects) :
    (Node.mk f.id bd (f.left ++ a :: (f.right ++ [b])) f.obs).objects.Perm
      (n.objects ++ (Node.objectsL f.left ++ Node.objectsL f.right)) := by
  rw [Node.objects_inner (by simp [Node.ch])]
  simp only [Node.ch, Node.objectsL_append, Node.objectsL, List.append_nil]
  refine List.Perm.trans ?_ (h.append_right _)
  generalize Node.objectsL f.left = L
  generalize Node.objectsL f.right = R
  generalize a.objects = A
  generalize b.objects = B
  rw [List.perm_iff_count]
  intro x
  simp only [List.count_append]
  omega

theorem split_parent_ids {f : Frame} {n a b : Node} {bd : Box} {i : Nat} (ha : a.id = n.id)
    (hb : b.id = i) (h : (Node.idsL a.ch ++ Node.idsL b.ch).Perm (Node.idsL n.ch)) :
    (Node.mk f.id bd (f.left ++ a :: (f.right ++ [b])) f.obs).ids.Perm
      (i :: (n.ids ++ (f.id :: (Node.idsL f.left ++ Node.idsL f.right)))) := by
  simp only [Node.ids_eq, Node.id_mk, Node.ch_mk, Node.idsL_append, Node.idsL, List.append_nil]
  rw [List.perm_iff_count] at h ⊢
  intro x
  have := h x
  simp only [List.count_append, List.count_cons, ha, hb] at this ⊢
  omega

/-- `recalcBoundary` of a node. -/
theorem recalc_ok {n m : Node} : recalc n = .ok m ↔
    ∃ b, computeBoundary n = some b ∧ m = .mk n.id b n.ch n.obs := by
  unfold recalc
  rw [orUb_ok, Option.map_eq_some_iff]
  constructor
  · rintro ⟨b, h1, h2⟩; exact ⟨b, h1, h2.symm⟩
  · rintro ⟨b, h1, h2⟩; exact ⟨b, h1, h2.symm⟩

theorem Post.trans_lab {lab1 : Nat → Nat} {next next1 next' : Nat} {o1 o2 : List Box} {t : Node}
    {I1 I2 : List Nat} (h : Post lab1 E k next1 I1 o1 t next') (hl : ∀ i < next, lab1 i = lab i)
    (hn : next ≤ next1) (hp : o1.Perm o2) (hi : ∀ i ∈ I1, i < next → i ∈ I2) :
    Post lab E k next I2 o2 t next' := by
  obtain ⟨lab', H, h1, h2, h3, h4, h5⟩ := h
  exact ⟨lab', H, fun i hi => (h1 i (by omega)).trans (hl i hi), by omega, h3, h4.trans hp,
    fun i h6 h7 => hi i (h5 i h6 (by omega)) h7⟩

theorem updateBoundaries_post {ctx : Ctx} {h next : Nat} {n t : Node} (hc : CtxWf lab E k h ctx)
    (he : CtxEx E n.bd ctx) (hn : Pre lab E k h n) (hnd : (n.ids ++ ctxIds ctx).Nodup)
    (hlt : ∀ i ∈ n.ids ++ ctxIds ctx, i < next) (hu : updateBoundaries ctx n = .ok t) :
    Post lab E k next (n.ids ++ ctxIds ctx) (n.objects ++ ctxObjs ctx) t next := by
  obtain ⟨h1, h2, h3⟩ := updateBoundaries_spec hc he hn hu
  exact ⟨lab, _, fun _ _ => rfl, le_rfl, ⟨h1, h3.nodup_iff.2 hnd, fun i hi => hlt i (h3.mem_iff.1 hi)⟩, h2,
    fun i hi _ => h3.mem_iff.1 hi⟩

theorem splitUp_spec {C : Cfg} (hC : C.Sound) : ∀ {ctx : Ctx} {lab : Nat → Nat} {h next next' : Nat}
    {n t : Node}, CtxWf lab E k h ctx → CtxUp E ctx → Pre lab E k h n →
    (n.fanOut ≤ C.mx → Wf lab E k h n) → (n.ids ++ ctxIds ctx).Nodup →
    (∀ i ∈ n.ids ++ ctxIds ctx, i < next) → splitUp C next ctx n = .ok (t, next') →
    Post lab E k next (n.ids ++ ctxIds ctx) (n.objects ++ ctxObjs ctx) t next'
  | [], lab, h, next, next', n, t, hc, hu, hn, hw, hnd, hlt, hs => by
    rw [splitUp] at hs
    simp only [ctxIds, List.append_nil] at hnd hlt
    split at hs
    · rename_i hf
      rw [except_bind_ok] at hs
      obtain ⟨⟨a, b⟩, h1, h2⟩ := hs
      simp only [Except.ok.injEq, Prod.mk.injEq] at h2
      obtain ⟨rfl, rfl⟩ := h2
      let lab1 : Nat → Nat := fun i => if i = next then h else if i = next + 1 then h else
        if i = next + 2 then h + 1 else lab i
      have hl1 : ∀ i < next, lab1 i = lab i := by
        intro i hi
        simp only [lab1]
        rw [if_neg (by omega), if_neg (by omega), if_neg (by omega)]
      have hn1 : Pre lab1 E k h n := hn.congr (fun i hi => hl1 i (hlt i hi)) (fun _ _ x => x)
      obtain ⟨w1, w2, e1, e2, p1, p2⟩ := splitNode_spec hC hn1 hf (i1 := next) (i2 := next + 1)
        (by simp [lab1]) (by simp [lab1]) h1
      refine ⟨lab1, h + 1, hl1, by omega, ⟨?_, ?_, ?_⟩, ?_, ?_⟩
      · refine ⟨⟨by simp [lab1, Node.id_mk], ranked_mbr2 w1.top.rank w2.top.rank, .inr ?_⟩, rfl,
          by simp [Node.ch_mk], ?_⟩
        · simp [computeBoundary, Node.isLeaf, Node.ch_mk, Node.bd_mk, mbrList]
        · intro c hc
          simp only [Node.ch_mk, List.mem_cons, List.not_mem_nil, or_false] at hc
          rcases hc with rfl | rfl
          · exact w1
          · exact w2
      · have hp : (Node.mk (next + 2) (mbr2 a.bd b.bd) [a, b] []).ids.Perm
            ((next + 2) :: next :: (next + 1) :: Node.idsL n.ch) := by
          simp only [Node.ids_eq, Node.id_mk, Node.ch_mk, Node.idsL, List.append_nil, e1, e2]
          refine List.Perm.cons _ ?_
          rw [List.cons_append]
          refine List.Perm.cons _ ?_
          exact List.perm_middle.trans (p2.cons _)
        rw [hp.nodup_iff]
        rw [Node.ids_eq] at hnd hlt
        have hlt' : ∀ i ∈ Node.idsL n.ch, i < next := fun i hi => hlt i (by simp [hi])
        simp only [List.nodup_cons, List.mem_cons, not_or]
        have hnd' := (List.nodup_cons.1 hnd).2
        refine ⟨⟨by omega, by omega, fun hi => ?_⟩, ⟨by omega, fun hi => ?_⟩, fun hi => ?_, hnd'⟩
        all_goals have := hlt' _ hi; omega
      · intro i hi
        simp only [Node.ids_eq, Node.id_mk, Node.ch_mk, Node.idsL, List.append_nil, e1, e2,
          List.mem_cons, List.mem_append] at hi
        have hlt' : ∀ i ∈ Node.idsL n.ch, i < next := fun i hi => hlt i (by rw [Node.ids_eq]; simp [hi])
        have : i ∈ Node.idsL a.ch ∨ i ∈ Node.idsL b.ch → i < next := by
          intro hh
          exact hlt' i (p2.mem_iff.1 (by simpa using hh))
        rcases hi with hi | (hi | hi) | hi | hi
        · omega
        · omega
        · have := this (.inl hi); omega
        · omega
        · have := this (.inr hi); omega
      · rw [Node.objects_inner (by simp [Node.ch_mk])]
        simp only [Node.ch_mk, Node.objectsL, List.append_nil, ctxObjs]
        exact p1
      · intro i hi hin
        simp only [Node.ids_eq, Node.id_mk, Node.ch_mk, Node.idsL, List.append_nil, e1, e2,
          List.mem_cons, List.mem_append] at hi
        have : i ∈ Node.idsL a.ch ∨ i ∈ Node.idsL b.ch → i ∈ n.ids := by
          intro hh
          rw [Node.ids_eq]
          exact List.mem_cons_of_mem _ (p2.mem_iff.1 (by simpa using hh))
        simp only [ctxIds, List.append_nil]
        rcases hi with hi | (hi | hi) | hi | hi
        · omega
        · omega
        · exact this (.inl hi)
        · omega
        · exact this (.inr hi)
    · rename_i hf
      simp only [Except.ok.injEq, Prod.mk.injEq] at hs
      obtain ⟨rfl, rfl⟩ := hs
      exact ⟨lab, h, fun _ _ => rfl, le_rfl, ⟨hw (by omega), hnd, hlt⟩, by simp [ctxObjs],
        fun i hi _ => by simpa [ctxIds] using hi⟩
  | f :: ctx, lab, h, next, next', n, t, hc, hu, hn, hw, hnd, hlt, hs => by
    rw [splitUp] at hs
    split at hs
    · rename_i hf
      rw [except_bind_ok] at hs
      obtain ⟨⟨a, b⟩, h1, h2⟩ := hs
      simp only at h2
      have h2' : ∃ p', (if (Node.mk f.id f.bd (f.left ++ a :: (f.right ++ [b])) f.obs).fanOut ≤ C.mx
          then recalc (.mk f.id f.bd (f.left ++ a :: (f.right ++ [b])) f.obs)
          else .ok (.mk f.id f.bd (f.left ++ a :: (f.right ++ [b])) f.obs)) = .ok p' ∧
          splitUp C (next + 1) ctx p' = .ok (t, next') := by
        split at h2
        · rename_i hif; rw [if_pos hif]; exact except_bind_ok.1 h2
        · rename_i hif; rw [if_neg hif]; exact except_bind_ok.1 h2
      obtain ⟨p', h3, h4⟩ := h2'
      let lab1 : Nat → Nat := fun i => if i = next then h else lab i
      have hl1 : ∀ i < next, lab1 i = lab i := by
        intro i hi
        simp only [lab1]
        rw [if_neg (by omega)]
      have hn1 : Pre lab1 E k h n := hn.congr (fun i hi => hl1 i (hlt i (by simp [hi]))) (fun _ _ x => x)
      have hc1 : CtxWf lab1 E k h (f :: ctx) :=
        hc.congr (fun i hi => hl1 i (hlt i (by simp only [List.mem_append]; exact .inr hi)))
          (fun _ _ x => x)
      have hid : lab1 n.id = h := by
        rw [hl1 _ (hlt _ (by simp [id_mem_ids]))]; exact hn.label
      obtain ⟨w1, w2, e1, e2, p1, p2⟩ := splitNode_spec hC hn1 hf (i1 := n.id) (i2 := next) hid
        (by simp [lab1]) h1
      have hids := split_parent_ids (f := f) (bd := f.bd) e1 e2 p2
      have hobjs := split_parent_objects (f := f) (bd := f.bd) p1
      set p : Node := .mk f.id f.bd (f.left ++ a :: (f.right ++ [b])) f.obs with hpdef
      have hpp : Pre lab1 E k (h + 1) p := by
        obtain ⟨⟨g1, g2, g3, g4, g5⟩, _⟩ := hc1
        refine ⟨g1, g2, g3, ?_⟩
        intro c hc
        simp only [hpdef, Node.ch_mk, List.mem_append, List.mem_cons, List.not_mem_nil, or_false] at hc
        rcases hc with hc | rfl | hc | rfl
        · exact g4 c hc
        · exact w1
        · exact g5 c hc
        · exact w2
      have hp' : Pre lab1 E k (h + 1) p' ∧ (p'.fanOut ≤ C.mx → Wf lab1 E k (h + 1) p') ∧
          p'.ids = p.ids ∧ p'.objects = p.objects := by
        split at h3
        · obtain ⟨bd, hb, rfl⟩ := recalc_ok.1 h3
          have := hpp.wf hb
          refine ⟨this.pre, fun _ => this, ?_, ?_⟩
          · simp [Node.ids_eq, Node.id_mk, Node.ch_mk]
          · rw [hpdef]; exact objects_bd ..
        · rename_i hf
          simp only [Except.ok.injEq] at h3
          subst h3
          exact ⟨hpp, fun hh => absurd hh hf, rfl, rfl⟩
      obtain ⟨q1, q2, q3, q4⟩ := hp'
      have hperm : (p'.ids ++ ctxIds ctx).Perm (next :: (n.ids ++ ctxIds (f :: ctx))) := by
        rw [q3]
        refine (hids.append_right _).trans ?_
        simp [ctxIds]
      refine Post.trans_lab (splitUp_spec hC (ctx := ctx) hc1.2 (CtxEx.up hu) q1 q2 ?_ ?_ h4) hl1
        (by omega) ?_ ?_
      · rw [hperm.nodup_iff, List.nodup_cons]
        exact ⟨fun hi => absurd (hlt _ hi) (by omega), hnd⟩
      · intro i hi
        rcases List.mem_cons.1 (hperm.mem_iff.1 hi) with rfl | hi
        · omega
        · have := hlt i hi; omega
      · rw [q4, ctxObjs, ← List.append_assoc]
        exact hobjs.append_right _
      · intro i hi hin
        rcases List.mem_cons.1 (hperm.mem_iff.1 hi) with rfl | hi
        · omega
        · exact hi
    · rename_i hf
      rw [except_bind_ok] at hs
      obtain ⟨t', h1, h2⟩ := hs
      simp only [Except.ok.injEq, Prod.mk.injEq] at h2
      obtain ⟨rfl, rfl⟩ := h2
      have hwf := hw (by omega)
      have hids := plug_ids [f] n
      simp only [plug, ctxIds, List.append_nil] at hids
      have hperm : ((f.fill n).ids ++ ctxIds ctx).Perm (n.ids ++ ctxIds (f :: ctx)) := by
        refine (hids.append_right _).trans ?_
        simp [ctxIds]
      have hobjs := plug_objects [f] n
      simp only [plug, ctxObjs, List.append_nil] at hobjs
      refine Post.trans_lab (updateBoundaries_post (n := f.fill n) hc.2 hu (hc.fill_pre hwf)
        (hperm.nodup_iff.2 hnd) (fun i hi => hlt i (hperm.mem_iff.1 hi)) h1) (fun _ _ => rfl) le_rfl ?_
        (fun i hi _ => hperm.mem_iff.1 hi)
      rw [ctxObjs, ← List.append_assoc]
      exact hobjs.append_right _

end RTree
end Marco
