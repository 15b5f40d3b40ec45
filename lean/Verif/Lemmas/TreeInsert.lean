import Verif.Lemmas.TreeUpdate

/-! Helper lemmas on positions in a tree, the choice of a leaf and the insertion of an object. -/

namespace Marco
namespace RTree
open Spec
open IndexSet (SameSet)

variable {lab : Nat → Nat} {E : Nat → Prop} {k : Nat}

/-- A position in a tree. -/
structure Zip (lab : Nat → Nat) (E : Nat → Prop) (k h next : Nat) (ctx : Ctx) (n : Node) : Prop where
  wf : CtxWf lab E k h ctx
  ex : CtxEx E n.bd ctx
  nodup : (n.ids ++ ctxIds ctx).Nodup
  lt : ∀ i ∈ n.ids ++ ctxIds ctx, i < next

theorem TreeOk.zip_plug {H next : Nat} {ctx : Ctx} {n : Node} (h : TreeOk lab E k H next (plug ctx n)) :
    ∃ h, Zip lab E k h next ctx n ∧ Wf lab E k h n ∧ h + ctx.length = H := by
  obtain ⟨h0, h1, h2, h3, h4⟩ := wf_unplug h.wf
  have hp := plug_ids ctx n
  exact ⟨h0, ⟨h2, h3, hp.nodup_iff.1 h.nodup, fun i hi => h.lt i (hp.mem_iff.2 hi)⟩, h4, h1⟩

theorem TreeOk.zip {H next j : Nat} {t : Node} {ctx : Ctx} {n : Node} (h : TreeOk lab E k H next t)
    (hl : locate j t = some (ctx, n)) :
    ∃ h, Zip lab E k h next ctx n ∧ Wf lab E k h n ∧ n.id = j ∧ plug ctx n = t := by
  obtain ⟨h1, h2⟩ := locate_some hl
  subst h1
  obtain ⟨h0, z, w, _⟩ := h.zip_plug
  exact ⟨h0, z, w, h2, rfl⟩

theorem Zip.tree {h next : Nat} {ctx : Ctx} {n : Node} (z : Zip lab E k h next ctx n)
    (hn : Wf lab E k h n) : TreeOk lab E k (h + ctx.length) next (plug ctx n) := by
  have hp := plug_ids ctx n
  exact ⟨wf_plug z.wf z.ex hn, hp.nodup_iff.2 z.nodup, fun i hi => z.lt i (hp.mem_iff.1 hi)⟩

/-- Another node at the same position. -/
theorem Zip.replace {h next : Nat} {ctx : Ctx} {n n' : Node} (z : Zip lab E k h next ctx n)
    (hb : n'.bd = n.bd) (hi : n'.ids = n.ids) : Zip lab E k h next ctx n' :=
  ⟨z.wf, by rw [hb]; exact z.ex, by rw [hi]; exact z.nodup, by rw [hi]; exact z.lt⟩

theorem Zip.update {h next : Nat} {ctx : Ctx} {n t : Node} (z : Zip lab E k h next ctx n)
    (hn : Pre lab E k h n) (hu : updateBoundaries ctx n = .ok t) :
    Post lab E k next (n.ids ++ ctxIds ctx) (n.objects ++ ctxObjs ctx) t next :=
  updateBoundaries_post z.wf z.ex hn z.nodup z.lt hu

theorem Zip.split {C : Cfg} (hC : C.Sound) {h next next' : Nat} {ctx : Ctx} {n t : Node}
    (z : Zip lab E k h next ctx n) (hn : Pre lab E k h n) (hf : C.mx < n.fanOut)
    (hs : splitUp C next ctx n = .ok (t, next')) :
    Post lab E k next (n.ids ++ ctxIds ctx) (n.objects ++ ctxObjs ctx) t next' :=
  splitUp_spec hC z.wf z.ex.up hn (fun h => absurd hf (by omega)) z.nodup z.lt hs

/-- Labels and exemptions matter only at the identities of the tree. -/
theorem Zip.congr {lab' : Nat → Nat} {E' : Nat → Prop} {h next next' : Nat} {ctx : Ctx} {n : Node}
    (z : Zip lab E k h next ctx n) (hl : ∀ i ∈ ctxIds ctx, lab' i = lab i)
    (he : ∀ i ∈ ctxIds ctx, E i → E' i) (hn : next ≤ next') : Zip lab' E' k h next' ctx n :=
  ⟨z.wf.congr hl he, z.ex.congr he, z.nodup, fun i hi => by have := z.lt i hi; omega⟩

theorem focus_some {α : Type} {l a b : List α} {i : Nat} {x : α} (h : focus l i = some (a, x, b)) :
    l = a ++ x :: b := by
  unfold focus at h
  split at h
  · simp at h
  · rename_i y r hd
    simp only [Option.some.injEq, Prod.mk.injEq] at h
    obtain ⟨rfl, rfl, rfl⟩ := h
    rw [← hd, List.take_append_drop]

/-- Descending into a child. -/
theorem Zip.down {h next : Nat} {ctx : Ctx} {n c : Node} {l r : List Node}
    (z : Zip lab E k h next ctx n) (hn : Wf lab E k h n) (hch : n.ch = l ++ c :: r) :
    ∃ h', h = h' + 1 ∧ Zip lab E k h' next (⟨n.id, n.bd, l, r, n.obs⟩ :: ctx) c ∧ Wf lab E k h' c ∧
      Frame.fill ⟨n.id, n.bd, l, r, n.obs⟩ c = n := by
  cases h with
  | zero => rw [hn.2.1] at hch; simp at hch
  | succ h =>
    have hfill : Frame.fill ⟨n.id, n.bd, l, r, n.obs⟩ c = n := by
      simp only [Frame.fill]
      rw [← hch, ← Node.eta]
    have hids : (n.ids ++ ctxIds ctx).Perm (c.ids ++ ctxIds (⟨n.id, n.bd, l, r, n.obs⟩ :: ctx)) := by
      have := plug_ids [⟨n.id, n.bd, l, r, n.obs⟩] c
      simp only [plug, hfill, ctxIds, List.append_nil] at this
      refine (this.append_right _).trans ?_
      simp [ctxIds]
    obtain ⟨h1, h2, h3, h4⟩ := hn
    refine ⟨h, rfl, ⟨⟨⟨h1.lab, h1.rank, h2, ?_, ?_⟩, z.wf⟩, ⟨?_, z.ex⟩, hids.nodup_iff.1 z.nodup,
      fun i hi => z.lt i (hids.mem_iff.2 hi)⟩, h4 c (by simp [hch]), hfill⟩
    · exact fun c hc => h4 c (by rw [hch]; simp at hc ⊢; exact .inl hc)
    · exact fun c hc => h4 c (by rw [hch]; simp at hc ⊢; exact .inr (.inr hc))
    · have := h1.exact
      rw [← hfill, computeBoundary_fill] at this
      exact this

theorem chooseLeaf_spec {C : Cfg} {b : Box} : ∀ {fuel h next : Nat} {ctx ctx' : Ctx} {n d : Node},
    Zip lab E k h next ctx n → Wf lab E k h n → chooseLeaf C b fuel ctx n = .ok (ctx', d) →
    Zip lab E k 0 next ctx' d ∧ Wf lab E k 0 d ∧ plug ctx' d = plug ctx n
  | fuel, h, next, ctx, ctx', n, d, z, hn, hc => by
    by_cases hl : n.isLeaf = true
    · have : chooseLeaf C b fuel ctx n = .ok (ctx, n) := by cases fuel <;> simp [chooseLeaf, hl]
      rw [this] at hc
      simp only [Except.ok.injEq, Prod.mk.injEq] at hc
      obtain ⟨rfl, rfl⟩ := hc
      cases h with
      | zero => exact ⟨z, hn, rfl⟩
      | succ h => exact absurd (by simpa [Node.isLeaf] using hl) hn.2.2.1
    · cases fuel with
      | zero => simp [chooseLeaf, hl] at hc
      | succ fuel =>
        rw [chooseLeaf, if_neg hl, except_bind_ok] at hc
        obtain ⟨⟨l, c, r⟩, h1, h2⟩ := hc
        rw [orUb_ok] at h1
        obtain ⟨h', rfl, z', w', hf⟩ := z.down hn (focus_some h1)
        obtain ⟨i1, i2, i3⟩ := chooseLeaf_spec z' w' h2
        exact ⟨i1, i2, by rw [i3, plug, hf]⟩

/-- The hook keeps the set of points of a list of objects. -/
structure Cfg.HookOk (C : Cfg) (k : Nat) : Prop where
  same : ∀ l, (∀ b ∈ l, Ranked k b) → SameSet k l (C.hook l)
  single : ∀ b, C.hook [b] = [b]

/-- What an update of a tree guarantees, up to the hook. -/
def Step (lab : Nat → Nat) (E : Nat → Prop) (k next : Nat) (objs : List Box) (t : Node)
    (next' : Nat) : Prop :=
  ∃ lab' H, (∀ i < next, lab' i = lab i) ∧ next ≤ next' ∧ TreeOk lab' E k H next' t ∧
    SameSet k objs t.objects

theorem Post.step {next next' : Nat} {o1 o2 : List Box} {t : Node} {I : List Nat}
    (h : Post lab E k next I o1 t next')
    (hs : SameSet k o2 o1) : Step lab E k next o2 t next' := by
  obtain ⟨lab', H, h1, h2, h3, h4, _⟩ := h
  exact ⟨lab', H, h1, h2, h3, hs.trans (SameSet.perm h4.symm hs.ranked)⟩

theorem sameSet_ne {l l' : List Box} (h : SameSet k l l') (hr : ∀ b ∈ l, Ranked k b) (hne : l ≠ []) :
    l' ≠ [] := by
  obtain ⟨b, hb⟩ := List.exists_mem_of_ne_nil _ hne
  obtain ⟨p, hp⟩ := ranked_exists (hr b hb)
  intro he
  have := (h.mem p).2 ⟨b, hb, hp⟩
  rw [he] at this
  exact inL_nil p this

theorem CtxWf.objs_ranked {h : Nat} {ctx : Ctx} (hc : CtxWf lab E k h ctx) :
    ∀ o ∈ ctxObjs ctx, Ranked k o := by
  induction ctx generalizing h with
  | nil => simp [ctxObjs]
  | cons f ctx ih =>
    intro o ho
    obtain ⟨⟨_, _, _, h4, h5⟩, h6⟩ := hc
    simp only [ctxObjs, List.mem_append, Node.mem_objectsL] at ho
    rcases ho with (⟨c, hc, ho⟩ | ⟨c, hc, ho⟩) | ho
    · exact (h4 c hc).objects_ranked o ho
    · exact (h5 c hc).objects_ranked o ho
    · exact ih h6 o ho

/-- A leaf with one more object. -/
theorem addObject_spec {C : Cfg} (hk : C.HookOk k) {next : Nat} {ctx : Ctx} {d : Node} {o : Box}
    (z : Zip lab E k 0 next ctx d) (hd : Wf lab E k 0 d) (ho : Ranked k o) :
    Zip lab E k 0 next ctx (addObject C d o) ∧ Pre lab E k 0 (addObject C d o) ∧
      (addObject C d o).obs ≠ [] ∧
      SameSet k (o :: (plug ctx d).objects) ((addObject C d o).objects ++ ctxObjs ctx) := by
  have hr : ∀ b ∈ d.obs ++ [o], Ranked k b := by
    intro b hb
    simp only [List.mem_append, List.mem_singleton] at hb
    rcases hb with hb | rfl
    · exact hd.2.2.2 b hb
    · exact ho
  have hs := hk.same _ hr
  refine ⟨z.replace rfl ?_, ⟨hd.1.lab, hd.1.rank, hd.2.1, hs.ranked⟩, ?_, ?_⟩
  · simp [addObject, Node.ids_eq, Node.id_mk, Node.ch_mk]
  · exact sameSet_ne hs hr (by simp)
  · have hobj : (addObject C d o).objects = C.hook (d.obs ++ [o]) := by
      rw [Node.objects_leaf (by exact hd.2.1)]
      rfl
    rw [hobj]
    have hp := plug_objects ctx d
    rw [Node.objects_leaf hd.2.1] at hp
    have hp2 : (o :: (plug ctx d).objects).Perm ((d.obs ++ [o]) ++ ctxObjs ctx) := by
      refine (hp.cons o).trans ?_
      rw [List.append_assoc]
      exact List.perm_middle.symm
    have h3 := z.wf.objs_ranked
    have hr2 : ∀ b ∈ (d.obs ++ [o]) ++ ctxObjs ctx, Ranked k b := by
      intro b hb
      rcases List.mem_append.1 hb with hb | hb
      · exact hr b hb
      · exact h3 b hb
    exact (SameSet.perm hp2 (fun b hb => hr2 b (hp2.mem_iff.1 hb))).trans
      (hs.append (.refl h3))

end RTree
end Marco
