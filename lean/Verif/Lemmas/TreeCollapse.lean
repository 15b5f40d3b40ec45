import Verif.Lemmas.TreeInsert

/-! Helper lemmas on the collapse of nodes. -/

namespace Marco
namespace RTree
open Spec
open IndexSet (SameSet)

variable {lab : Nat → Nat} {E : Nat → Prop} {k : Nat}

/-- The nodes whose boundary may be wrong during a climb. -/
def EW (parent : Nat) (todo : List Nat) : Nat → Prop := fun i => i = parent ∨ i ∈ todo

theorem locate_mem {j : Nat} {t : Node} {ctx : Ctx} {n : Node} (h : locate j t = some (ctx, n)) :
    j ∈ t.ids := by
  by_contra hc
  rw [locate_none hc] at h
  simp at h

theorem relocateObject_spec {C : Cfg} (hC : C.Sound) (hk : C.HookOk k) {parent H : Nat} {w w' : Work}
    {o : Box} (h : TreeOk lab (EW parent w.todo) k H w.next w.tree) (ho : Ranked k o)
    (hr : relocateObject C parent w o = .ok w') :
    Step lab (EW parent w'.todo) k w.next (o :: w.tree.objects) w'.tree w'.next := by
  unfold relocateObject at hr
  rw [except_bind_ok] at hr
  obtain ⟨⟨ctx, p⟩, h1, hr⟩ := hr
  rw [deref_ok] at h1
  obtain ⟨hp, z, wp, hid, hpl⟩ := h.zip h1
  simp only at hr
  rw [except_bind_ok] at hr
  obtain ⟨⟨ctx', d⟩, h2, hr⟩ := hr
  obtain ⟨z', wd, hpl'⟩ := chooseLeaf_spec z wp h2
  obtain ⟨a1, a2, a3, a4⟩ := addObject_spec hk z' wd ho
  rw [hpl', hpl] at a4
  simp only at hr
  split at hr
  · rename_i hf
    rw [except_bind_ok] at hr
    obtain ⟨⟨t, next⟩, h3, h4⟩ := hr
    simp only [Except.ok.injEq] at h4
    subst h4
    exact (a1.split hC a2 hf h3).step a4
  · split at hr
    · simp only [Except.ok.injEq] at hr
      subst hr
      have z2 : Zip lab (EW parent (d.id :: w.todo)) k 0 w.next ctx' (addObject C d o) :=
        a1.congr (fun _ _ => rfl) (fun i _ hi => by
          rcases hi with hi | hi
          · exact .inl hi
          · exact .inr (by simp [hi])) le_rfl
      have w2 : Pre lab (EW parent (d.id :: w.todo)) k 0 (addObject C d o) := a2
      have hx := z2.tree (w2.exempt (.inr (by simp [addObject, Node.id_mk])) (.inr a3))
      exact ⟨lab, _, fun _ _ => rfl, le_rfl, hx, a4.trans (SameSet.perm (plug_objects _ _).symm a4.ranked)⟩
    · rw [except_bind_ok] at hr
      obtain ⟨t, h3, h4⟩ := hr
      simp only [Except.ok.injEq] at h4
      subst h4
      exact (a1.update a2 h3).step a4

theorem relocateObjects_spec {C : Cfg} (hC : C.Sound) (hk : C.HookOk k) {parent : Nat} :
    ∀ {os : List Box} {lab : Nat → Nat} {H : Nat} {w w' : Work},
    TreeOk lab (EW parent w.todo) k H w.next w.tree → (∀ o ∈ os, Ranked k o) →
    relocateObjects C parent w os = .ok w' →
    Step lab (EW parent w'.todo) k w.next (os ++ w.tree.objects) w'.tree w'.next
  | [], lab, H, w, w', h, _, hr => by
    simp only [relocateObjects, Except.ok.injEq] at hr
    subst hr
    exact ⟨lab, H, fun _ _ => rfl, le_rfl, h, .refl h.wf.objects_ranked⟩
  | o :: os, lab, H, w, w', h, ho, hr => by
    rw [relocateObjects, except_bind_ok] at hr
    obtain ⟨w1, h1, h2⟩ := hr
    obtain ⟨lab1, H1, b1, b2, b3, b4⟩ := relocateObject_spec hC hk h (ho o (by simp)) h1
    obtain ⟨lab2, H2, c1, c2, c3, c4⟩ :=
      relocateObjects_spec hC hk b3 (fun o ho' => ho o (by simp [ho'])) h2
    have hos : ∀ b ∈ os, Ranked k b := fun b hb => ho b (by simp [hb])
    refine ⟨lab2, H2, fun i hi => (c1 i (by omega)).trans (b1 i hi), by omega, c3, ?_⟩
    have hall : ∀ b ∈ o :: os ++ w.tree.objects, Ranked k b := by
      intro b hb
      simp only [List.cons_append, List.mem_cons, List.mem_append] at hb
      rcases hb with rfl | hb | hb
      · exact ho _ (by simp)
      · exact hos b hb
      · exact h.wf.objects_ranked b hb
    have h3 : SameSet k (o :: os ++ w.tree.objects) (os ++ o :: w.tree.objects) :=
      SameSet.perm (by rw [List.cons_append]; exact List.perm_middle.symm) hall
    exact h3.trans (((SameSet.refl hos).append b4).trans c4)

theorem relocateNode_spec {C : Cfg} (hC : C.Sound) {parent H hc : Nat} {w w' : Work}
    {c : Node} (h : TreeOk lab (EW parent w.todo) k H w.next w.tree)
    (hcw : Wf lab (EW parent w.todo) k hc c) (hlab : lab parent = hc + 2)
    (hnd : (c.ids ++ w.tree.ids).Nodup) (hlt : ∀ i ∈ c.ids, i < w.next)
    (hr : relocateNode C parent w c = .ok w') :
    Post lab (EW parent w.todo) k w.next (c.ids ++ w.tree.ids) (c.objects ++ w.tree.objects) w'.tree
      w'.next ∧ w'.todo = w.todo ∧ parent < w.next := by
  unfold relocateNode at hr
  rw [except_bind_ok] at hr
  obtain ⟨⟨ctx, p⟩, h1, hr⟩ := hr
  rw [deref_ok] at h1
  have hpar : parent < w.next := h.lt _ (locate_mem h1)
  obtain ⟨hp, z, wp, hid, hpl⟩ := h.zip h1
  simp only at hr
  rw [except_bind_ok] at hr
  obtain ⟨⟨l, d, r⟩, h2, hr⟩ := hr
  rw [orUb_ok] at h2
  obtain ⟨hd, rfl, z', wd, hfill⟩ := z.down wp (focus_some h2)
  have hhd : hd = hc + 1 := by
    have := wp.top.lab
    rw [hid, hlab] at this
    omega
  subst hhd
  simp only at hr
  -- the destination with the additional child
  have hids : (Node.mk d.id d.bd (d.ch ++ [c]) d.obs).ids.Perm (c.ids ++ d.ids) := by
    simp only [Node.ids_eq d, Node.ids_eq (.mk _ _ _ _), Node.id_mk, Node.ch_mk, Node.idsL_append,
      Node.idsL, List.append_nil]
    rw [List.perm_iff_count]
    intro x
    simp only [List.count_append, List.count_cons]
    omega
  have hobj : (Node.mk d.id d.bd (d.ch ++ [c]) d.obs).objects.Perm (c.objects ++ d.objects) := by
    rw [Node.objects_inner (by simp [Node.ch_mk]), Node.objects_inner wd.2.2.1]
    simp only [Node.ch_mk, Node.objectsL_append, Node.objectsL, List.append_nil]
    exact List.perm_append_comm
  set ctx1 : Ctx := ⟨p.id, p.bd, l, r, p.obs⟩ :: ctx with hctx1
  have hti : w.tree.ids.Perm (d.ids ++ ctxIds ctx1) := by
    have := plug_ids ctx1 d
    rwa [hctx1, plug, hfill, hpl, ← hctx1] at this
  have hto : w.tree.objects.Perm (d.objects ++ ctxObjs ctx1) := by
    have := plug_objects ctx1 d
    rwa [hctx1, plug, hfill, hpl, ← hctx1] at this
  have hids2 : ((Node.mk d.id d.bd (d.ch ++ [c]) d.obs).ids ++ ctxIds ctx1).Perm
      (c.ids ++ w.tree.ids) := by
    refine (hids.append_right _).trans ?_
    rw [List.append_assoc]
    exact hti.symm.append_left _
  have z2 : Zip lab (EW parent w.todo) k (hc + 1) w.next ctx1 (.mk d.id d.bd (d.ch ++ [c]) d.obs) := by
    refine ⟨z'.wf, z'.ex, hids2.nodup_iff.2 hnd, fun i hi => ?_⟩
    rcases List.mem_append.1 (hids2.mem_iff.1 hi) with hi | hi
    · exact hlt i hi
    · exact h.lt i hi
  have hpre : Pre lab (EW parent w.todo) k (hc + 1) (.mk d.id d.bd (d.ch ++ [c]) d.obs) := by
    refine ⟨wd.1.lab, wd.1.rank, wd.2.1, ?_⟩
    intro x hx
    simp only [Node.ch_mk, List.mem_append, List.mem_singleton] at hx
    rcases hx with hx | rfl
    · exact wd.2.2.2 x hx
    · exact hcw
  have hobj2 : ((Node.mk d.id d.bd (d.ch ++ [c]) d.obs).objects ++ ctxObjs ctx1).Perm
      (c.objects ++ w.tree.objects) := by
    refine (hobj.append_right _).trans ?_
    rw [List.append_assoc]
    exact hto.symm.append_left _
  split at hr
  · rename_i hf
    rw [except_bind_ok] at hr
    obtain ⟨⟨t, next⟩, h3, h4⟩ := hr
    simp only [Except.ok.injEq] at h4
    subst h4
    exact ⟨(z2.split hC hpre hf h3).trans_lab (fun _ _ => rfl) le_rfl hobj2
      (fun i hi _ => hids2.mem_iff.1 hi), rfl, hpar⟩
  · rw [except_bind_ok] at hr
    obtain ⟨t, h3, h4⟩ := hr
    simp only [Except.ok.injEq] at h4
    subst h4
    exact ⟨(z2.update hpre h3).trans_lab (fun _ _ => rfl) le_rfl hobj2
      (fun i hi _ => hids2.mem_iff.1 hi), rfl, hpar⟩

theorem relocateNodes_spec {C : Cfg} (hC : C.Sound) {parent hc : Nat} :
    ∀ {cs : List Node} {lab : Nat → Nat} {H : Nat} {w w' : Work},
    TreeOk lab (EW parent w.todo) k H w.next w.tree →
    (∀ c ∈ cs, Wf lab (EW parent w.todo) k hc c) → lab parent = hc + 2 →
    (Node.idsL cs ++ w.tree.ids).Nodup → (∀ i ∈ Node.idsL cs, i < w.next) →
    relocateNodes C parent w cs = .ok w' →
    Step lab (EW parent w'.todo) k w.next (Node.objectsL cs ++ w.tree.objects) w'.tree w'.next
  | [], lab, H, w, w', h, _, _, _, _, hr => by
    simp only [relocateNodes, Except.ok.injEq] at hr
    subst hr
    exact ⟨lab, H, fun _ _ => rfl, le_rfl, h, .refl h.wf.objects_ranked⟩
  | c :: cs, lab, H, w, w', h, hcs, hlab, hnd, hlt, hr => by
    rw [relocateNodes, except_bind_ok] at hr
    obtain ⟨w1, h1, h2⟩ := hr
    simp only [Node.idsL] at hnd hlt
    have hnd' : (c.ids ++ w.tree.ids).Nodup := by
      refine hnd.sublist ?_
      exact (List.sublist_append_left _ _).append (List.Sublist.refl _)
    obtain ⟨⟨lab1, H1, b1, b2, b3, b4, b5⟩, htodo, hpar⟩ := relocateNode_spec hC h (hcs c (by simp)) hlab hnd'
      (fun i hi => hlt i (by simp [hi])) h1
    have hcw := hcs c (by simp)
    rw [← htodo] at b3
    have hndd := hnd
    rw [List.append_assoc, List.nodup_append] at hnd
    obtain ⟨n1, n2, n3⟩ := hnd
    rw [List.nodup_append] at n2
    obtain ⟨n4, n5, n6⟩ := n2
    obtain ⟨lab2, H2, c1, c2, c3, c4⟩ := relocateNodes_spec hC (hc := hc) b3
      (fun x hx => (hcs x (by simp [hx])).congr
        (fun i hi => b1 i (hlt i (by simp [mem_idsL.2 ⟨x, hx, hi⟩])))
        (fun i _ hi => by rw [htodo]; exact hi))
      (by rw [b1 _ hpar]; exact hlab)
      (by
        rw [List.nodup_append]
        refine ⟨n4, b3.nodup, fun i hi j hj hij => ?_⟩
        subst hij
        have := b5 i hj (hlt i (by simp [hi]))
        rcases List.mem_append.1 this with hm | hm
        · exact n3 i hm i (by simp [hi]) rfl
        · exact n6 i hi i hm rfl)
      (fun i hi => by have := hlt i (by simp [hi]); omega) h2
    have hcsr : ∀ b ∈ Node.objectsL cs, Ranked k b := by
      intro b hb
      obtain ⟨x, hx, hb⟩ := (Node.mem_objectsL _ _).1 hb
      exact (hcs x (by simp [hx])).objects_ranked b hb
    have hcr := hcw.objects_ranked
    have htr := h.wf.objects_ranked
    refine ⟨lab2, H2, fun i hi => (c1 i (by omega)).trans (b1 i hi), by omega, c3, ?_⟩
    have hall : ∀ b ∈ Node.objectsL (c :: cs) ++ w.tree.objects, Ranked k b := by
      intro b hb
      simp only [Node.objectsL, List.mem_append] at hb
      rcases hb with (hb | hb) | hb
      · exact hcr b hb
      · exact hcsr b hb
      · exact htr b hb
    have hp : (Node.objectsL (c :: cs) ++ w.tree.objects).Perm
        (Node.objectsL cs ++ w1.tree.objects) := by
      refine List.Perm.trans ?_ (b4.symm.append_left _)
      simp only [Node.objectsL, List.append_assoc]
      rw [← List.append_assoc, ← List.append_assoc]
      exact List.perm_append_comm.append_right _
    exact (SameSet.perm hp hall).trans c4

/-! ### Climbing -/

/-- The state of the inner loop at the node `j`, with the objects `objs` still to be relocated. -/
def Foc (lab : Nat → Nat) (k : Nat) (w : Work) (j : Nat) (objs : List Box) : Prop :=
  w.tree.ids.Nodup ∧ (∀ i ∈ w.tree.ids, i < w.next) ∧
  ∀ ctx n, locate j w.tree = some (ctx, n) → ∃ h, Zip lab (· ∈ w.todo) k h w.next ctx n ∧
    Pre lab (· ∈ w.todo) k h n ∧ n.obs = [] ∧ (objs ≠ [] → n.ch = [])

/-- A node of a tree whose exempt nodes are it and those of `todo`. -/
theorem TreeOk.focus {H j next : Nat} {todo : List Nat} {t : Node}
    (h : TreeOk lab (EW j todo) k H next t) {ctx : Ctx} {n : Node} (hl : locate j t = some (ctx, n)) :
    ∃ h, Zip lab (· ∈ todo) k h next ctx n ∧ Pre lab (· ∈ todo) k h n ∧ lab j = h := by
  obtain ⟨h0, z, wn, hid, hpl⟩ := h.zip hl
  have hnd := z.nodup
  rw [List.nodup_append] at hnd
  have hctx : ∀ i ∈ ctxIds ctx, i ≠ j := by
    intro i hi he
    exact hnd.2.2 n.id (id_mem_ids n) i hi (by rw [hid, he])
  have hch : ∀ i ∈ Node.idsL n.ch, i ≠ j := by
    intro i hi he
    have := hnd.1
    rw [Node.ids_eq, List.nodup_cons] at this
    exact this.1 (by rw [hid, ← he]; exact hi)
  refine ⟨h0, z.congr (fun _ _ => rfl) (fun i hi he => ?_) le_rfl,
    wn.pre.congr (fun _ _ => rfl) (fun i hi he => ?_), by rw [← hid]; exact wn.top.lab⟩
  · rcases he with he | he
    · exact absurd he (hctx i hi)
    · exact he
  · rcases he with he | he
    · exact absurd he (hch i hi)
    · exact he

theorem TreeOk.foc {H j h0 : Nat} {w : Work} (h : TreeOk lab (EW j w.todo) k H w.next w.tree)
    (hj : lab j = h0 + 1) : Foc lab k w j [] := by
  refine ⟨h.nodup, h.lt, fun ctx n hl => ?_⟩
  obtain ⟨h1, z, p, hl⟩ := h.focus hl
  rw [hj] at hl
  subst hl
  exact ⟨_, z, p, p.2.2.1, fun hh => absurd rfl hh⟩

/-- The objects of a node without objects of its own. -/
theorem objects_no_obs {n : Node} (h : n.obs = []) : n.objects = Node.objectsL n.ch := by
  by_cases hc : n.ch = []
  · rw [Node.objects_leaf hc, hc, h]; simp [Node.objectsL]
  · exact Node.objects_inner hc

/-- Removing the node at a position. -/
theorem Zip.remove {h next : Nat} {f : Frame} {ctx : Ctx} {n : Node}
    (z : Zip lab E k h next (f :: ctx) n) :
    Zip lab E k (h + 1) next ctx (.mk f.id f.bd (f.left ++ f.right) f.obs) ∧
      Pre lab E k (h + 1) (.mk f.id f.bd (f.left ++ f.right) f.obs) ∧
      (Node.mk f.id f.bd (f.left ++ f.right) f.obs).ids ++ ctxIds ctx = ctxIds (f :: ctx) ∧
      (plug ctx (Node.mk f.id f.bd (f.left ++ f.right) f.obs)).objects.Perm (ctxObjs (f :: ctx)) := by
  have hids : (Node.mk f.id f.bd (f.left ++ f.right) f.obs).ids ++ ctxIds ctx = ctxIds (f :: ctx) := by
    simp [Node.ids_eq, Node.id_mk, Node.ch_mk, Node.idsL_append, ctxIds]
  obtain ⟨⟨g1, g2, g3, g4, g5⟩, g6⟩ := z.wf
  have hnd := z.nodup
  rw [List.nodup_append] at hnd
  refine ⟨⟨g6, z.ex.2, by rw [hids]; exact hnd.2.1, fun i hi => z.lt i (by
    rw [hids] at hi; simp only [List.mem_append]; exact .inr hi)⟩, ⟨g1, g2, g3, ?_⟩, hids, ?_⟩
  · intro c hc
    simp only [Node.ch_mk, List.mem_append] at hc
    rcases hc with hc | hc
    · exact g4 c hc
    · exact g5 c hc
  · refine (plug_objects _ _).trans ?_
    rw [objects_no_obs (n := .mk f.id f.bd (f.left ++ f.right) f.obs) g3, Node.ch_mk, Node.objectsL_append, ctxObjs]

theorem Pre.objs_ranked {h : Nat} {n : Node} (hn : Pre lab E k h n) : ∀ o ∈ n.objects, Ranked k o := by
  cases h with
  | zero => rw [Node.objects_leaf hn.2.2.1]; exact hn.2.2.2
  | succ h =>
    rw [objects_no_obs hn.2.2.1]
    intro o ho
    obtain ⟨c, hc, ho⟩ := (Node.mem_objectsL _ _).1 ho
    exact (hn.2.2.2 c hc).objects_ranked o ho

theorem Zip.objs_ranked {h next : Nat} {ctx : Ctx} {n : Node} (z : Zip lab E k h next ctx n)
    (hn : Pre lab E k h n) : ∀ o ∈ (plug ctx n).objects, Ranked k o := by
  intro o ho
  rcases List.mem_append.1 ((plug_objects ctx n).mem_iff.1 ho) with ho | ho
  · exact hn.objs_ranked o ho
  · exact z.wf.objs_ranked o ho

theorem climb_spec {C : Cfg} (hC : C.Sound) (hk : C.HookOk k) : ∀ {fuel : Nat} {lab : Nat → Nat}
    {w w' : Work} {j j' : Nat} {objs : List Box}, Foc lab k w j objs → (∀ o ∈ objs, Ranked k o) →
    climb C fuel w j objs = .ok (w', j') →
    ∃ lab' objs', (∀ i < w.next, lab' i = lab i) ∧ w.next ≤ w'.next ∧ Foc lab' k w' j' objs' ∧
      SameSet k (objs ++ w.tree.objects) (objs' ++ w'.tree.objects)
  | 0, lab, w, w', j, j', objs, _, _, hc => by simp [climb] at hc
  | fuel + 1, lab, w, w', j, j', objs, hf, ho, hc => by
    rw [climb, except_bind_ok] at hc
    obtain ⟨⟨ctx, n⟩, h1, hc⟩ := hc
    rw [deref_ok] at h1
    obtain ⟨h, z, pn, hobs, hch⟩ := hf.2.2 ctx n h1
    obtain ⟨hpl, hid⟩ := locate_some h1
    have htr : ∀ o ∈ w.tree.objects, Ranked k o := by rw [← hpl]; exact z.objs_ranked pn
    have hall : ∀ o ∈ objs ++ w.tree.objects, Ranked k o := by
      intro o h
      rcases List.mem_append.1 h with h | h
      · exact ho o h
      · exact htr o h
    simp only at hc
    split at hc
    · simp only [Except.ok.injEq, Prod.mk.injEq] at hc
      obtain ⟨rfl, rfl⟩ := hc
      exact ⟨lab, objs, fun _ _ => rfl, le_rfl, hf, .refl hall⟩
    · rename_i f ctx1
      split at hc
      swap
      · simp only [Except.ok.injEq, Prod.mk.injEq] at hc
        obtain ⟨rfl, rfl⟩ := hc
        exact ⟨lab, objs, fun _ _ => rfl, le_rfl, hf, .refl hall⟩
      obtain ⟨z1, p1, hids1, hobj1⟩ := z.remove
      have hnch : n.objects = Node.objectsL n.ch := objects_no_obs hobs
      set p : Node := .mk f.id f.bd (f.left ++ f.right) f.obs with hp
      -- the tree without the node, if the parent is not empty
      have htree : f.left ++ f.right ≠ [] →
          TreeOk lab (EW f.id w.todo) k (h + 1 + ctx1.length) w.next (plug ctx1 p) := by
        intro hne
        have z2 : Zip lab (EW f.id w.todo) k (h + 1) w.next ctx1 p :=
          z1.congr (fun _ _ => rfl) (fun _ _ hi => .inr hi) le_rfl
        have p2 : Pre lab (EW f.id w.todo) k (h + 1) p :=
          p1.congr (fun _ _ => rfl) (fun _ _ hi => .inr hi)
        exact z2.tree (p2.exempt (.inl rfl) (.inl hne))
      have htobj : w.tree.objects.Perm (Node.objectsL n.ch ++ (plug ctx1 p).objects) := by
        rw [← hpl]
        refine (plug_objects _ _).trans ?_
        rw [hnch]
        exact hobj1.symm.append_left _
      have hlabf : lab f.id = h + 1 := z.wf.1.1
      have hltf : f.id < w.next := z.lt _ (by simp [ctxIds])
      by_cases hA : objs ≠ [] ∧ f.left ++ f.right ≠ []
      · -- the objects are relocated
        have hcond : (!objs.isEmpty && !(f.left ++ f.right).isEmpty) = true := by
          obtain ⟨a1, a2⟩ := hA
          rw [Bool.and_eq_true]
          constructor
          · cases objs with
            | nil => exact absurd rfl a1
            | cons a l => rfl
          · cases hlr : f.left ++ f.right with
            | nil => exact absurd hlr a2
            | cons a l => rfl
        have hcn := hch hA.1
        rw [if_pos hcond, hcn] at hc
        rw [except_bind_ok] at hc
        obtain ⟨w2, h2, hc⟩ := hc
        simp only [relocateNodes] at hc
        rw [except_bind_ok] at hc
        obtain ⟨w3, h3, hc⟩ := hc
        simp only [Except.ok.injEq] at h3
        subst h3
        rw [if_pos hcond] at hc
        obtain ⟨lab1, H1, b1, b2, b3, b4⟩ := relocateObjects_spec hC hk (htree hA.2) ho h2
        obtain ⟨lab2, objs', c1, c2, c3, c4⟩ := climb_spec hC hk
          (b3.foc (by rw [b1 _ hltf]; exact hlabf)) (by simp) hc
        refine ⟨lab2, objs', fun i hi => (c1 i (lt_of_lt_of_le hi b2)).trans (b1 i hi),
          le_trans b2 c2, c3, ?_⟩
        have hperm : (objs ++ w.tree.objects).Perm (objs ++ (plug ctx1 p).objects) := by
          rw [hcn] at htobj
          exact htobj.append_left _
        exact (SameSet.perm hperm hall).trans (b4.trans (by simpa using c4))
      · have hcond : ¬ (!objs.isEmpty && !(f.left ++ f.right).isEmpty) = true := by
          intro hb
          rw [Bool.and_eq_true] at hb
          apply hA
          constructor
          · intro he; rw [he] at hb; simp at hb
          · intro he; rw [he] at hb; simp at hb
        rw [if_neg hcond] at hc
        rw [except_bind_ok] at hc
        obtain ⟨w2, h2, hc⟩ := hc
        simp only [Except.ok.injEq] at h2
        subst h2
        rw [except_bind_ok] at hc
        obtain ⟨w3, h3, hc⟩ := hc
        rw [if_neg hcond] at hc
        cases hcn : n.ch with
        | nil =>
          rw [hcn, relocateNodes] at h3
          simp only [Except.ok.injEq] at h3
          subst h3
          have hloc : locate f.id (plug ctx1 p) = some (ctx1, p) := locate_plug (n := p) z1.nodup
          have hfoc : Foc lab k { w with tree := plug ctx1 p } f.id objs := by
            refine ⟨(plug_ids ctx1 p).nodup_iff.2 z1.nodup,
              fun i hi => z1.lt i ((plug_ids ctx1 p).mem_iff.1 hi), fun ctx' n' hl => ?_⟩
            simp only at hl
            rw [hloc] at hl
            simp only [Option.some.injEq, Prod.mk.injEq] at hl
            obtain ⟨rfl, rfl⟩ := hl
            refine ⟨h + 1, z1, p1, p1.2.2.1, fun hne => ?_⟩
            by_contra hh
            exact hA ⟨hne, hh⟩
          obtain ⟨lab2, objs', c1, c2, c3, c4⟩ := climb_spec hC hk hfoc ho hc
          refine ⟨lab2, objs', c1, c2, c3, ?_⟩
          have hperm : (objs ++ w.tree.objects).Perm (objs ++ (plug ctx1 p).objects) := by
            rw [hcn] at htobj
            exact htobj.append_left _
          exact (SameSet.perm hperm hall).trans c4
        | cons c0 cs0 =>
          have hobjs : objs = [] := by
            by_contra hne
            have := hch hne
            rw [hcn] at this
            simp at this
          have hne : f.left ++ f.right ≠ [] := by
            intro he
            rw [hcn, relocateNodes, except_bind_ok] at h3
            obtain ⟨w4, h4, _⟩ := h3
            have hloc : locate f.id (plug ctx1 p) = some (ctx1, p) := locate_plug (n := p) z1.nodup
            unfold relocateNode at h4
            rw [except_bind_ok] at h4
            obtain ⟨⟨c', p'⟩, h5, h6⟩ := h4
            rw [deref_ok, hloc] at h5
            simp only [Option.some.injEq, Prod.mk.injEq] at h5
            obtain ⟨rfl, rfl⟩ := h5
            simp only at h6
            rw [except_bind_ok] at h6
            obtain ⟨⟨l, d, r⟩, h7, _⟩ := h6
            rw [orUb_ok] at h7
            have := focus_some h7
            rw [hp, Node.ch_mk, he] at this
            simp at this
          cases h with
          | zero =>
            have := pn.2.2.1
            rw [hcn] at this
            simp at this
          | succ h =>
            have hnd := z.nodup
            have hperm0 : (n.ids ++ ctxIds (f :: ctx1)).Perm
                (n.id :: (Node.idsL n.ch ++ (plug ctx1 p).ids)) := by
              rw [Node.ids_eq n, List.cons_append]
              refine List.Perm.cons _ (List.Perm.append_left _ ?_)
              rw [← hids1]
              exact (plug_ids ctx1 p).symm
            obtain ⟨lab1, H1, b1, b2, b3, b4⟩ := relocateNodes_spec hC (hc := h)
              (w := { w with tree := plug ctx1 p }) (htree hne)
              (fun c hc => (pn.2.2.2 c hc).congr (fun _ _ => rfl) (fun _ _ hi => .inr hi)) hlabf
              (List.nodup_cons.1 (hperm0.nodup_iff.1 hnd)).2
              (fun i hi => z.lt i (by rw [Node.ids_eq]; simp [hi])) h3
            subst hobjs
            obtain ⟨lab2, objs', c1, c2, c3, c4⟩ := climb_spec hC hk
              (b3.foc (by rw [b1 _ hltf]; exact hlabf)) (by simp) hc
            refine ⟨lab2, objs', fun i hi => (c1 i (lt_of_lt_of_le hi b2)).trans (b1 i hi),
              le_trans b2 c2, c3, ?_⟩
            rw [List.nil_append] at hall c4 ⊢
            exact (SameSet.perm htobj hall).trans (b4.trans c4)

/-! ### Collapsing -/

theorem shrinkRoot_spec {H next : Nat} {t : Node} (h : TreeOk lab E k H next t) :
    ∃ H', TreeOk lab E k H' next (shrinkRoot t) ∧ (shrinkRoot t).objects = t.objects := by
  unfold shrinkRoot
  split
  · rename_i c hc
    cases H with
    | zero => have := h.wf.2.1; rw [hc] at this; simp at this
    | succ H =>
      refine ⟨H, ⟨h.wf.2.2.2 c (by simp [hc]), ?_, fun i hi => h.lt i ?_⟩, ?_⟩
      · have := h.nodup
        rw [Node.ids_eq, hc, List.nodup_cons] at this
        simpa [Node.idsL] using this.2
      · rw [Node.ids_eq, hc]; simp [Node.idsL, hi]
      · rw [Node.objects_inner (n := t) (by simp [hc]), hc]
        simp [Node.objectsL]
  · exact ⟨H, h, rfl⟩

/-- The state of the outer loop. -/
def Coll (lab : Nat → Nat) (k : Nat) (w : Work) : Prop :=
  w.tree.ids.Nodup ∧ (∀ i ∈ w.tree.ids, i < w.next) ∧ (∀ o ∈ w.tree.objects, Ranked k o) ∧
  match w.todo with
  | [] => ∃ H, Wf lab (fun _ => False) k H w.tree
  | j :: js => ∀ ctx n, locate j w.tree = some (ctx, n) → ∃ h, Zip lab (· ∈ js) k h w.next ctx n ∧
      Pre lab (· ∈ js) k h n

theorem TreeOk.coll {H : Nat} {w : Work} (h : TreeOk lab (· ∈ w.todo) k H w.next w.tree) :
    Coll lab k w := by
  refine ⟨h.nodup, h.lt, h.wf.objects_ranked, ?_⟩
  split
  · rename_i he
    refine ⟨H, h.wf.congr (fun _ _ => rfl) (fun i _ hi => ?_)⟩
    rw [he] at hi
    simp at hi
  · rename_i j js he
    intro ctx n hl
    have h' : TreeOk lab (EW j js) k H w.next w.tree :=
      ⟨h.wf.congr (fun _ _ => rfl) (fun i _ hi => by
        rw [he] at hi; simpa [EW] using hi), h.nodup, h.lt⟩
    obtain ⟨h0, z, p, _⟩ := h'.focus hl
    exact ⟨h0, z, p⟩

theorem collapse_spec {C : Cfg} (hC : C.Sound) (hk : C.HookOk k) : ∀ {fuel : Nat} {lab : Nat → Nat}
    {w : Work} {t : Node} {next' : Nat}, Coll lab k w → collapse C fuel w = .ok (t, next') →
    Step lab (fun _ => False) k w.next w.tree.objects t next'
  | 0, lab, w, t, next', _, hc => by simp [collapse] at hc
  | fuel + 1, lab, w, t, next', hw, hc => by
    obtain ⟨w1, w2, w3, w4⟩ := hw
    rw [collapse] at hc
    split at hc
    · rename_i he
      rw [he] at w4
      obtain ⟨H, w4⟩ := w4
      simp only [Except.ok.injEq, Prod.mk.injEq] at hc
      obtain ⟨rfl, rfl⟩ := hc
      exact ⟨lab, H, fun _ _ => rfl, le_rfl, ⟨w4, w1, w2⟩, .refl w3⟩
    · rename_i j js he
      rw [he] at w4
      rw [except_bind_ok] at hc
      obtain ⟨⟨ctx, n⟩, h1, hc⟩ := hc
      rw [deref_ok] at h1
      obtain ⟨h, z, pn⟩ := w4 ctx n h1
      obtain ⟨hpl, hid⟩ := locate_some h1
      simp only at hc
      rw [except_bind_ok] at hc
      obtain ⟨⟨v, j'⟩, h2, hc⟩ := hc
      simp only at hc
      rw [except_bind_ok] at hc
      obtain ⟨⟨ctx2, n2⟩, h3, hc⟩ := hc
      rw [deref_ok] at h3
      simp only at hc
      rw [except_bind_ok] at hc
      obtain ⟨t2, h4, hc⟩ := hc
      -- the node without its objects
      have hids : (Node.mk n.id n.bd n.ch []).ids = n.ids := by simp [Node.ids_eq, Node.id_mk, Node.ch_mk]
      have z0 : Zip lab (· ∈ js) k h w.next ctx (.mk n.id n.bd n.ch []) := z.replace rfl hids
      have p0 : Pre lab (· ∈ js) k h (.mk n.id n.bd n.ch []) := by
        cases h with
        | zero => exact ⟨pn.1, pn.2.1, pn.2.2.1, by simp [Node.obs_mk]⟩
        | succ h => exact ⟨pn.1, pn.2.1, rfl, pn.2.2.2⟩
      have hex : n.obs ≠ [] → n.ch = [] := by
        cases h with
        | zero => exact fun _ => pn.2.2.1
        | succ h => exact fun hh => absurd pn.2.2.1 hh
      have hor : ∀ o ∈ n.obs, Ranked k o := by
        cases h with
        | zero => exact pn.2.2.2
        | succ h => rw [pn.2.2.1]; simp
      have hfoc : Foc lab k { w with tree := plug ctx (.mk n.id n.bd n.ch []), todo := js } j n.obs := by
        refine ⟨(plug_ids ctx _).nodup_iff.2 z0.nodup,
          fun i hi => z0.lt i ((plug_ids ctx _).mem_iff.1 hi), fun ctx' n' hl => ?_⟩
        have hloc := locate_plug z0.nodup
        rw [Node.id_mk] at hloc
        simp only at hl
        rw [← hid, hloc] at hl
        simp only [Option.some.injEq, Prod.mk.injEq] at hl
        obtain ⟨rfl, rfl⟩ := hl
        exact ⟨h, z0, p0, rfl, hex⟩
      obtain ⟨lab1, objs', b1, b2, b3, b4⟩ := climb_spec hC hk hfoc hor h2
      obtain ⟨h5, z5, p5, hob5, hch5⟩ := b3.2.2 ctx2 n2 h3
      have hobjs' : objs' = [] := by
        by_contra hne
        have hcc := hch5 hne
        unfold updateBoundaries at h4
        have : computeBoundary n2 = none := by
          unfold computeBoundary
          rw [if_pos (by simp [Node.isLeaf, hcc]), hob5]
          rfl
        rw [this] at h4
        simp at h4
      subst hobjs'
      obtain ⟨lab2, H2, c1, c2, c3, c4, _⟩ := z5.update p5 h4
      obtain ⟨H3, d1, d2⟩ := shrinkRoot_spec c3
      have hcoll : Coll lab2 k { v with tree := shrinkRoot t2 } := TreeOk.coll (H := H3) d1
      obtain ⟨lab3, H4, e1, e2, e3, e4⟩ := collapse_spec hC hk hcoll hc
      simp only at b1 b2 b4 e1 e2 e4
      refine ⟨lab3, H4, fun i hi => (e1 i (by omega)).trans ((c1 i (by omega)).trans (b1 i hi)), by omega,
        e3, ?_⟩
      have hobj0 : w.tree.objects.Perm
          (n.obs ++ (plug ctx (.mk n.id n.bd n.ch [])).objects) := by
        rw [← hpl]
        refine (plug_objects _ _).trans (List.Perm.trans ?_ ((plug_objects _ _).symm.append_left _))
        rw [← List.append_assoc]
        refine List.Perm.append_right _ ?_
        by_cases hcn : n.ch = []
        · rw [Node.objects_leaf hcn, Node.objects_leaf (by exact hcn)]
          simp [Node.obs_mk]
        · rw [Node.objects_inner hcn, Node.objects_inner (n := .mk n.id n.bd n.ch []) hcn]
          have : n.obs = [] := by
            by_contra hh
            exact hcn (hex hh)
          simp [this, Node.ch_mk]
      have hpl2 := (locate_some h3).1
      have hfin : v.tree.objects.Perm (shrinkRoot t2).objects := by
        rw [d2, ← hpl2]
        exact (plug_objects _ _).trans c4.symm
      refine (SameSet.perm hobj0 w3).trans (b4.trans ?_)
      rw [List.nil_append]
      have hvr : ∀ o ∈ v.tree.objects, Ranked k o := by
        intro o ho
        exact b4.ranked o (by simpa using ho)
      exact (SameSet.perm hfin hvr).trans e4

/-! ### Adjusting -/

/-- The guarantee of an update whose result may be empty. -/
def StepO (lab : Nat → Nat) (k next : Nat) (objs : List Box) : Option Node → Nat → Prop
  | none, next' => objs = [] ∧ next' = next
  | some t, next' => Step lab (fun _ => False) k next objs t next'

theorem adjustTree_spec {C : Cfg} (hC : C.Sound) (hk : C.HookOk k) {fuel next next' : Nat} {ctx : Ctx}
    {n : Node} {r : Option Node} (z : Zip lab (fun _ => False) k 0 next ctx n)
    (hn : Pre lab (fun _ => False) k 0 n) (ha : adjustTree C fuel next ctx n = .ok (r, next')) :
    StepO lab k next (n.objects ++ ctxObjs ctx) r next' := by
  have hr : ∀ o ∈ n.objects ++ ctxObjs ctx, Ranked k o := by
    intro o ho
    rcases List.mem_append.1 ho with ho | ho
    · exact hn.objs_ranked o ho
    · exact z.wf.objs_ranked o ho
  have hsplit : ∀ t next1, n.fanOut > C.mx → splitUp C next ctx n = .ok (t, next1) →
      StepO lab k next (n.objects ++ ctxObjs ctx) (some t) next1 :=
    fun t next1 hf hs => (z.split hC hn hf hs).step (.refl hr)
  have hupd : ∀ t, updateBoundaries ctx n = .ok t →
      StepO lab k next (n.objects ++ ctxObjs ctx) (some t) next :=
    fun t hu => (z.update hn hu).step (.refl hr)
  unfold adjustTree at ha
  split at ha
  · rename_i hctx
    have hctx : ctx = [] := by simpa using hctx
    split at ha
    · rename_i hf
      simp only [Except.ok.injEq, Prod.mk.injEq] at ha
      obtain ⟨rfl, rfl⟩ := ha
      obtain ⟨f1, f2⟩ := fanOut_eq_zero.1 hf
      refine ⟨?_, rfl⟩
      rw [hctx, Node.objects_leaf f1, f2]
      rfl
    · split at ha
      · rename_i hf
        rw [except_bind_ok] at ha
        obtain ⟨⟨t, next1⟩, h1, h2⟩ := ha
        simp only [Except.ok.injEq, Prod.mk.injEq] at h2
        obtain ⟨rfl, rfl⟩ := h2
        exact hsplit _ _ hf h1
      · rw [except_bind_ok] at ha
        obtain ⟨t, h1, h2⟩ := ha
        simp only [Except.ok.injEq, Prod.mk.injEq] at h2
        obtain ⟨rfl, rfl⟩ := h2
        exact hupd _ h1
  · split at ha
    · rw [except_bind_ok] at ha
      obtain ⟨⟨t, next1⟩, h1, h2⟩ := ha
      simp only [Except.ok.injEq, Prod.mk.injEq] at h2
      obtain ⟨rfl, rfl⟩ := h2
      have hcoll : Coll lab k ⟨plug ctx n, next, [n.id]⟩ := by
        refine ⟨(plug_ids ctx _).nodup_iff.2 z.nodup,
          fun i hi => z.lt i ((plug_ids ctx _).mem_iff.1 hi), z.objs_ranked hn, ?_⟩
        intro ctx' n' hl
        simp only at hl
        rw [locate_plug z.nodup] at hl
        simp only [Option.some.injEq, Prod.mk.injEq] at hl
        obtain ⟨rfl, rfl⟩ := hl
        exact ⟨0, z.congr (fun _ _ => rfl) (fun _ _ hi => hi.elim) le_rfl,
          hn.congr (fun _ _ => rfl) (fun _ _ hi => hi.elim)⟩
      obtain ⟨lab', H, e1, e2, e3, e4⟩ := collapse_spec hC hk hcoll h1
      exact ⟨lab', H, e1, e2, e3, (SameSet.perm (plug_objects ctx n).symm hr).trans e4⟩
    · split at ha
      · rename_i hf
        rw [except_bind_ok] at ha
        obtain ⟨⟨t, next1⟩, h1, h2⟩ := ha
        simp only [Except.ok.injEq, Prod.mk.injEq] at h2
        obtain ⟨rfl, rfl⟩ := h2
        exact hsplit _ _ hf h1
      · rw [except_bind_ok] at ha
        obtain ⟨t, h1, h2⟩ := ha
        simp only [Except.ok.injEq, Prod.mk.injEq] at h2
        obtain ⟨rfl, rfl⟩ := h2
        exact hupd _ h1

end RTree
end Marco
