import Verif.Model.RTreeUpdate
import Verif.Lemmas.BulkLoad
import Verif.Lemmas.IndexSetOps

/-! Helper lemmas on positions in a tree. -/

namespace Marco
open Spec

theorem except_bind_ok {ε α β : Type} {x : Except ε α} {f : α → Except ε β} {b : β} :
    (x >>= f) = .ok b ↔ ∃ a, x = .ok a ∧ f a = .ok b := by
  cases x with
  | error e => simp [bind, Except.bind]
  | ok a => simp [bind, Except.bind]

namespace Node
theorem id_mk (i : Nat) (b : Box) (c : List Node) (o : List Box) : (Node.mk i b c o).id = i := rfl
theorem bd_mk (i : Nat) (b : Box) (c : List Node) (o : List Box) : (Node.mk i b c o).bd = b := rfl
theorem ch_mk (i : Nat) (b : Box) (c : List Node) (o : List Box) : (Node.mk i b c o).ch = c := rfl
theorem obs_mk (i : Nat) (b : Box) (c : List Node) (o : List Box) : (Node.mk i b c o).obs = o := rfl
end Node

namespace RTree

theorem orUb_ok {α : Type} {o : Option α} {a : α} : orUb o = .ok a ↔ o = some a := by
  cases o <;> simp [orUb]

theorem deref_ok {t : Node} {k : Nat} {x : Ctx × Node} : deref t k = .ok x ↔ locate k t = some x :=
  orUb_ok

/-- The objects of the siblings on the path. -/
def ctxObjs : Ctx → List Box
  | [] => []
  | f :: ctx => Node.objectsL f.left ++ Node.objectsL f.right ++ ctxObjs ctx

/-- The identities of the nodes of the path and of their other children. -/
def ctxIds : Ctx → List Nat
  | [] => []
  | f :: ctx => f.id :: (Node.idsL f.left ++ Node.idsL f.right) ++ ctxIds ctx

theorem fill_ids (f : Frame) (n : Node) :
    (f.fill n).ids = f.id :: (Node.idsL f.left ++ n.ids ++ Node.idsL f.right) := by
  simp [Frame.fill, Node.ids, Node.idsL_append, Node.idsL]

theorem fill_objects (f : Frame) (n : Node) :
    (f.fill n).objects = Node.objectsL f.left ++ n.objects ++ Node.objectsL f.right := by
  rw [Node.objects_inner (by simp [Frame.fill, Node.ch])]
  simp [Frame.fill, Node.ch, Node.objectsL_append, Node.objectsL]

theorem plug_ids : ∀ (ctx : Ctx) (n : Node), (plug ctx n).ids.Perm (n.ids ++ ctxIds ctx)
  | [], n => by simp [plug, ctxIds]
  | f :: ctx, n => by
    rw [plug]
    refine (plug_ids ctx _).trans ?_
    rw [fill_ids, ctxIds, ← List.append_assoc]
    refine List.Perm.append_right _ ?_
    rw [List.append_assoc]
    have h1 : (Node.idsL f.left ++ (n.ids ++ Node.idsL f.right)).Perm
        (n.ids ++ (Node.idsL f.left ++ Node.idsL f.right)) := by
      rw [← List.append_assoc, ← List.append_assoc]
      exact List.Perm.append_right _ List.perm_append_comm
    exact (h1.cons _).trans List.perm_middle.symm

theorem plug_objects : ∀ (ctx : Ctx) (n : Node), (plug ctx n).objects.Perm (n.objects ++ ctxObjs ctx)
  | [], n => by simp [plug, ctxObjs]
  | f :: ctx, n => by
    rw [plug]
    refine (plug_objects ctx _).trans ?_
    rw [fill_objects, ctxObjs, ← List.append_assoc]
    refine List.Perm.append_right _ ?_
    rw [← List.append_assoc]
    exact List.Perm.append_right _ List.perm_append_comm

theorem plug_append : ∀ (a b : Ctx) (n : Node), plug (a ++ b) n = plug b (plug a n)
  | [], _, _ => rfl
  | f :: a, b, n => by rw [List.cons_append, plug, plug_append a b, plug]

theorem id_mem_ids (n : Node) : n.id ∈ n.ids := by rw [Node.ids_eq]; simp

mutual
theorem locate_some : ∀ {k : Nat} {t : Node} {ctx : Ctx} {n : Node}, locate k t = some (ctx, n) →
    plug ctx n = t ∧ n.id = k
  | k, .mk i b ch obs, ctx, n, h => by
    rw [locate] at h
    split at h
    · rename_i hi
      simp only [Option.some.injEq, Prod.mk.injEq] at h
      obtain ⟨rfl, rfl⟩ := h
      exact ⟨rfl, hi⟩
    · rw [Option.map_eq_some_iff] at h
      obtain ⟨⟨l, ctx', n', r⟩, h1, h2⟩ := h
      simp only [Prod.mk.injEq] at h2
      obtain ⟨rfl, rfl⟩ := h2
      obtain ⟨i1, i2⟩ := locateL_some h1
      refine ⟨?_, i2⟩
      rw [plug_append]
      simp only [plug, Frame.fill]
      rw [i1]
theorem locateL_some : ∀ {k : Nat} {cs l r : List Node} {ctx : Ctx} {n : Node},
    locateL k cs = some (l, ctx, n, r) → l ++ plug ctx n :: r = cs ∧ n.id = k
  | k, [], l, r, ctx, n, h => by simp [locateL] at h
  | k, c :: cs, l, r, ctx, n, h => by
    rw [locateL] at h
    split at h
    · rename_i ctx' n' hl
      simp only [Option.some.injEq, Prod.mk.injEq] at h
      obtain ⟨rfl, rfl, rfl, rfl⟩ := h
      obtain ⟨i1, i2⟩ := locate_some hl
      exact ⟨by rw [i1]; rfl, i2⟩
    · rw [Option.map_eq_some_iff] at h
      obtain ⟨⟨l', ctx', n', r'⟩, h1, h2⟩ := h
      simp only [Prod.mk.injEq] at h2
      obtain ⟨rfl, rfl, rfl, rfl⟩ := h2
      obtain ⟨i1, i2⟩ := locateL_some h1
      exact ⟨by rw [List.cons_append, i1], i2⟩
end

mutual
theorem locate_none : ∀ {k : Nat} {t : Node}, k ∉ t.ids → locate k t = none
  | k, .mk i b ch obs, h => by
    rw [Node.ids_eq] at h
    simp only [Node.id, Node.ch, List.mem_cons, not_or] at h
    rw [locate, if_neg (fun e => h.1 e.symm), locateL_none h.2]
    rfl
theorem locateL_none : ∀ {k : Nat} {cs : List Node}, k ∉ Node.idsL cs → locateL k cs = none
  | k, [], _ => by rw [locateL]
  | k, c :: cs, h => by
    simp only [Node.idsL, List.mem_append, not_or] at h
    rw [locateL, locate_none h.1, locateL_none h.2]
    rfl
end

theorem locateL_append {k : Nat} {r : List Node} {c n : Node} {ctx : Ctx}
    (hc : locate k c = some (ctx, n)) : ∀ {l : List Node}, k ∉ Node.idsL l →
    locateL k (l ++ c :: r) = some (l, ctx, n, r)
  | [], _ => by rw [List.nil_append, locateL, hc]
  | x :: l, h => by
    simp only [Node.idsL, List.mem_append, not_or] at h
    rw [List.cons_append, locateL, locate_none h.1, locateL_append hc h.2]
    rfl

theorem locate_self (n : Node) : locate n.id n = some ([], n) := by
  cases n with
  | mk i b ch obs => rw [locate]; simp [Node.id]

/-- Locating inside a subtree whose identity does not occur elsewhere. -/
theorem locate_plug_of {k : Nat} {c : Node} {n : Node} : ∀ {ctx0 ctx : Ctx},
    locate k c = some (ctx0, n) → k ∉ ctxIds ctx → locate k (plug ctx c) = some (ctx0 ++ ctx, n) := by
  intro ctx0 ctx
  induction ctx generalizing c ctx0 with
  | nil => intro h _; simpa [plug] using h
  | cons f ctx ih =>
    intro h hk
    simp only [ctxIds, List.mem_append, List.mem_cons, not_or] at hk
    rw [plug]
    have : locate k (f.fill c) = some (ctx0 ++ [f], n) := by
      rw [Frame.fill, locate, if_neg (fun e => hk.1.1 e.symm), locateL_append h hk.1.2.1]
      rfl
    rw [ih this hk.2]
    simp

theorem locate_plug {ctx : Ctx} {n : Node} (h : (n.ids ++ ctxIds ctx).Nodup) :
    locate n.id (plug ctx n) = some (ctx, n) := by
  have := locate_plug_of (ctx := ctx) (locate_self n) (by
    intro hm
    rw [List.nodup_append] at h
    exact h.2.2 _ (id_mem_ids n) _ hm rfl)
  simpa using this

/-! ### The invariant -/

/-- The part of the invariant on the node itself. -/
structure Top (lab : Nat → Nat) (E : Nat → Prop) (k h : Nat) (n : Node) : Prop where
  lab : lab n.id = h
  rank : Ranked k n.bd
  exact : E n.id ∨ computeBoundary n = some n.bd

/-- A tree of height `h`, whose boundaries are exact except at the nodes of `E`; `lab` gives the
heights of the nodes. -/
def Wf (lab : Nat → Nat) (E : Nat → Prop) (k : Nat) : Nat → Node → Prop
  | 0, n => Top lab E k 0 n ∧ n.ch = [] ∧ n.obs ≠ [] ∧ ∀ o ∈ n.obs, Ranked k o
  | h + 1, n => Top lab E k (h + 1) n ∧ n.obs = [] ∧ n.ch ≠ [] ∧ ∀ c ∈ n.ch, Wf lab E k h c

/-- The same, but the node itself may be empty and its boundary may be wrong. -/
def Pre (lab : Nat → Nat) (E : Nat → Prop) (k : Nat) : Nat → Node → Prop
  | 0, n => lab n.id = 0 ∧ Ranked k n.bd ∧ n.ch = [] ∧ ∀ o ∈ n.obs, Ranked k o
  | h + 1, n => lab n.id = h + 1 ∧ Ranked k n.bd ∧ n.obs = [] ∧ ∀ c ∈ n.ch, Wf lab E k h c

/-- The siblings on the path are well-formed. -/
def CtxWf (lab : Nat → Nat) (E : Nat → Prop) (k : Nat) : Nat → Ctx → Prop
  | _, [] => True
  | h, f :: ctx => (lab f.id = h + 1 ∧ Ranked k f.bd ∧ f.obs = [] ∧ (∀ c ∈ f.left, Wf lab E k h c) ∧
      ∀ c ∈ f.right, Wf lab E k h c) ∧ CtxWf lab E k (h + 1) ctx

/-- The boundaries on the path are exact if that of the node is `b`. -/
def CtxEx (E : Nat → Prop) : Box → Ctx → Prop
  | _, [] => True
  | b, f :: ctx => (E f.id ∨ mbrList (f.left.map Node.bd ++ b :: f.right.map Node.bd) = some f.bd) ∧
      CtxEx E f.bd ctx

/-- The boundaries on the path above the parent are exact. -/
def CtxUp (E : Nat → Prop) : Ctx → Prop
  | [] => True
  | f :: ctx => CtxEx E f.bd ctx

theorem CtxEx.up {E : Nat → Prop} {b : Box} {ctx : Ctx} (h : CtxEx E b ctx) : CtxUp E ctx := by
  cases ctx with
  | nil => trivial
  | cons f ctx => exact h.2

variable {lab : Nat → Nat} {E : Nat → Prop} {k : Nat}

theorem Wf.top {h : Nat} {n : Node} (hw : Wf lab E k h n) : Top lab E k h n := by
  cases h <;> exact hw.1

theorem Pre.label {h : Nat} {n : Node} (hw : Pre lab E k h n) : lab n.id = h := by
  cases h <;> exact hw.1

theorem Pre.rank {h : Nat} {n : Node} (hw : Pre lab E k h n) : Ranked k n.bd := by
  cases h <;> exact hw.2.1

theorem Wf.pre {h : Nat} {n : Node} (hw : Wf lab E k h n) : Pre lab E k h n := by
  cases h with
  | zero => exact ⟨hw.1.lab, hw.1.rank, hw.2.1, hw.2.2.2⟩
  | succ h => exact ⟨hw.1.lab, hw.1.rank, hw.2.1, hw.2.2.2⟩

theorem Wf.objects_ne {h : Nat} {n : Node} (hw : Wf lab E k h n) : n.objects ≠ [] := by
  induction h generalizing n with
  | zero => rw [Node.objects_leaf hw.2.1]; exact hw.2.2.1
  | succ h ih =>
    rw [Node.objects_inner hw.2.2.1]
    obtain ⟨c, hc⟩ := List.exists_mem_of_ne_nil _ hw.2.2.1
    have := ih (hw.2.2.2 c hc)
    obtain ⟨o, ho⟩ := List.exists_mem_of_ne_nil _ this
    intro he
    have := (Node.mem_objectsL n.ch o).2 ⟨c, hc, ho⟩
    rw [he] at this
    simp at this

/-- The boundary of a node without its own boundary. -/
theorem computeBoundary_mk (i : Nat) (b b' : Box) (ch : List Node) (obs : List Box) :
    computeBoundary (.mk i b ch obs) = computeBoundary (.mk i b' ch obs) := rfl

theorem computeBoundary_fill (f : Frame) (n : Node) :
    computeBoundary (f.fill n) = mbrList (f.left.map Node.bd ++ n.bd :: f.right.map Node.bd) := by
  unfold computeBoundary
  rw [if_neg (by simp [Node.isLeaf, Frame.fill, Node.ch])]
  simp [Frame.fill, Node.ch]

theorem mbrList_ranked {l : List Box} {b : Box} (hl : ∀ o ∈ l, Ranked k o) (h : mbrList l = some b) :
    Ranked k b := (mbrList_spec h hl).1

theorem Pre.boundary_ranked {h : Nat} {n : Node} (hp : Pre lab E k h n) {b : Box}
    (hb : computeBoundary n = some b) : Ranked k b := by
  unfold computeBoundary at hb
  cases h with
  | zero =>
    rw [if_pos (by simp [Node.isLeaf, hp.2.2.1])] at hb
    exact mbrList_ranked hp.2.2.2 hb
  | succ h =>
    split at hb
    · rw [hp.2.2.1] at hb; simp [mbrList] at hb
    · refine mbrList_ranked ?_ hb
      intro o ho
      obtain ⟨c, hc, rfl⟩ := List.mem_map.1 ho
      exact (hp.2.2.2 c hc).top.rank

/-- A node whose boundary exists is not empty. -/
theorem Pre.wf {h : Nat} {n : Node} (hp : Pre lab E k h n) {b : Box} (hb : computeBoundary n = some b) :
    Wf lab E k h (.mk n.id b n.ch n.obs) := by
  have hr := hp.boundary_ranked hb
  cases h with
  | zero =>
    refine ⟨⟨hp.1, hr, .inr ?_⟩, hp.2.2.1, ?_, hp.2.2.2⟩
    · change computeBoundary _ = some b; rw [← hb]; cases n; rfl
    · intro he
      change n.obs = [] at he
      unfold computeBoundary at hb
      rw [if_pos (by simp [Node.isLeaf, hp.2.2.1]), he] at hb
      simp [mbrList] at hb
  | succ h =>
    refine ⟨⟨hp.1, hr, .inr ?_⟩, hp.2.2.1, ?_, hp.2.2.2⟩
    · change computeBoundary _ = some b; rw [← hb]; cases n; rfl
    · intro he
      change n.ch = [] at he
      unfold computeBoundary at hb
      rw [if_pos (by simp [Node.isLeaf, he]), hp.2.2.1] at hb
      simp [mbrList] at hb

theorem Pre.wf' {h : Nat} {n : Node} (hp : Pre lab E k h n) (hb : computeBoundary n = some n.bd) :
    Wf lab E k h n := by
  have := hp.wf hb
  rwa [← Node.eta] at this

/-- A node that is not empty has a boundary. -/
theorem computeBoundary_isSome {n : Node} (h : n.ch ≠ [] ∨ n.obs ≠ []) :
    ∃ b, computeBoundary n = some b := by
  unfold computeBoundary
  split
  · rename_i hl
    have hc : n.ch = [] := by simpa [Node.isLeaf] using hl
    have ho : n.obs ≠ [] := by tauto
    cases hn : n.obs with
    | nil => exact absurd hn ho
    | cons a l => exact ⟨_, rfl⟩
  · rename_i hl
    cases hn : n.ch with
    | nil => simp [Node.isLeaf, hn] at hl
    | cons a l => exact ⟨_, rfl⟩

theorem Pre.exempt {h : Nat} {n : Node} (hp : Pre lab E k h n) (he : E n.id)
    (hne : n.ch ≠ [] ∨ n.obs ≠ []) : Wf lab E k h n := by
  cases h with
  | zero =>
    exact ⟨⟨hp.1, hp.2.1, .inl he⟩, hp.2.2.1, by have := hp.2.2.1; tauto, hp.2.2.2⟩
  | succ h =>
    exact ⟨⟨hp.1, hp.2.1, .inl he⟩, hp.2.2.1, by have := hp.2.2.1; tauto, hp.2.2.2⟩

theorem Wf.ne {h : Nat} {n : Node} (hw : Wf lab E k h n) : n.ch ≠ [] ∨ n.obs ≠ [] := by
  cases h with
  | zero => exact .inr hw.2.2.1
  | succ h => exact .inl hw.2.2.1

theorem CtxWf.fill_pre {h : Nat} {f : Frame} {ctx : Ctx} {n : Node} (hc : CtxWf lab E k h (f :: ctx))
    (hn : Wf lab E k h n) : Pre lab E k (h + 1) (f.fill n) := by
  obtain ⟨⟨h1, h2, h3, h4, h5⟩, _⟩ := hc
  refine ⟨h1, h2, h3, ?_⟩
  intro c hc
  simp only [Frame.fill, Node.ch, List.mem_append, List.mem_cons] at hc
  rcases hc with hc | rfl | hc
  · exact h4 c hc
  · exact hn
  · exact h5 c hc

theorem CtxWf.fill_wf {h : Nat} {f : Frame} {ctx : Ctx} {n : Node} (hc : CtxWf lab E k h (f :: ctx))
    (he : CtxEx E n.bd (f :: ctx)) (hn : Wf lab E k h n) : Wf lab E k (h + 1) (f.fill n) := by
  have hp := hc.fill_pre hn
  rcases he.1 with he | he
  · exact hp.exempt he (.inl (by simp [Frame.fill, Node.ch]))
  · exact hp.wf' (by rw [computeBoundary_fill]; exact he)

theorem wf_plug {h : Nat} {ctx : Ctx} {n : Node} (hc : CtxWf lab E k h ctx) (he : CtxEx E n.bd ctx)
    (hn : Wf lab E k h n) : Wf lab E k (h + ctx.length) (plug ctx n) := by
  induction ctx generalizing h n with
  | nil => simpa [plug] using hn
  | cons f ctx ih =>
    rw [plug, List.length_cons]
    have := ih hc.2 (n := f.fill n) he.2 (hc.fill_wf he hn)
    rwa [Nat.add_assoc, Nat.add_comm 1] at this

/-- Taking a well-formed tree apart. -/
theorem wf_unplug {ctx : Ctx} : ∀ {H : Nat} {n : Node}, Wf lab E k H (plug ctx n) →
    ∃ h, h + ctx.length = H ∧ CtxWf lab E k h ctx ∧ CtxEx E n.bd ctx ∧ Wf lab E k h n := by
  induction ctx with
  | nil => intro H n h; exact ⟨H, rfl, trivial, trivial, h⟩
  | cons f ctx ih =>
    intro H n hw
    obtain ⟨h, h1, h2, h3, h4⟩ := ih hw
    cases h with
    | zero => exact absurd h4.2.1 (by simp [Frame.fill, Node.ch])
    | succ h =>
      refine ⟨h, by simp only [List.length_cons]; omega, ⟨⟨h4.1.lab, h4.1.rank, h4.2.1, ?_, ?_⟩, h2⟩, ⟨?_, h3⟩, ?_⟩
      · exact fun c hc => h4.2.2.2 c (by simp [Frame.fill, Node.ch, hc])
      · exact fun c hc => h4.2.2.2 c (by simp [Frame.fill, Node.ch, hc])
      · have := h4.1.exact
        rwa [computeBoundary_fill] at this
      · exact h4.2.2.2 n (by simp [Frame.fill, Node.ch])

/-! ### Changing the labels and the exemptions -/

/-- Labels and exemptions matter only at the identities of the tree. -/
theorem Wf.congr {lab' : Nat → Nat} {E' : Nat → Prop} {h : Nat} {n : Node} (hw : Wf lab E k h n)
    (hl : ∀ i ∈ n.ids, lab' i = lab i) (he : ∀ i ∈ n.ids, E i → E' i) : Wf lab' E' k h n := by
  induction h generalizing n with
  | zero =>
    obtain ⟨⟨h1, h2, h3⟩, h4⟩ := hw
    exact ⟨⟨(hl _ (id_mem_ids n)).trans h1, h2, h3.imp (he _ (id_mem_ids n)) (fun x => x)⟩, h4⟩
  | succ h ih =>
    obtain ⟨⟨h1, h2, h3⟩, h4, h5, h6⟩ := hw
    refine ⟨⟨(hl _ (id_mem_ids n)).trans h1, h2, h3.imp (he _ (id_mem_ids n)) (fun x => x)⟩, h4, h5, ?_⟩
    intro c hc
    have hsub : ∀ i ∈ c.ids, i ∈ n.ids := by
      intro i hi
      rw [Node.ids_eq]
      refine List.mem_cons_of_mem _ ?_
      obtain ⟨a, b, hab⟩ := List.append_of_mem hc
      rw [hab, Node.idsL_append, Node.idsL]
      simp [hi]
    exact ih (h6 c hc) (fun i hi => hl i (hsub i hi)) (fun i hi => he i (hsub i hi))

theorem mem_idsL {l : List Node} {i : Nat} : i ∈ Node.idsL l ↔ ∃ c ∈ l, i ∈ c.ids := by
  induction l with
  | nil => simp [Node.idsL]
  | cons a l ih => simp [Node.idsL, ih]

theorem Pre.congr {lab' : Nat → Nat} {E' : Nat → Prop} {h : Nat} {n : Node} (hw : Pre lab E k h n)
    (hl : ∀ i ∈ n.ids, lab' i = lab i) (he : ∀ i ∈ Node.idsL n.ch, E i → E' i) :
    Pre lab' E' k h n := by
  cases h with
  | zero => exact ⟨(hl _ (id_mem_ids n)).trans hw.1, hw.2⟩
  | succ h =>
    refine ⟨(hl _ (id_mem_ids n)).trans hw.1, hw.2.1, hw.2.2.1, fun c hc => ?_⟩
    refine (hw.2.2.2 c hc).congr (fun i hi => hl i ?_) (fun i hi => he i (mem_idsL.2 ⟨c, hc, hi⟩))
    rw [Node.ids_eq]
    exact List.mem_cons_of_mem _ (mem_idsL.2 ⟨c, hc, hi⟩)

theorem CtxWf.congr {lab' : Nat → Nat} {E' : Nat → Prop} {h : Nat} {ctx : Ctx}
    (hw : CtxWf lab E k h ctx) (hl : ∀ i ∈ ctxIds ctx, lab' i = lab i)
    (he : ∀ i ∈ ctxIds ctx, E i → E' i) : CtxWf lab' E' k h ctx := by
  induction ctx generalizing h with
  | nil => trivial
  | cons f ctx ih =>
    obtain ⟨⟨h1, h2, h3, h4, h5⟩, h6⟩ := hw
    simp only [ctxIds, List.mem_append, List.mem_cons] at hl he
    refine ⟨⟨(hl _ (by simp)).trans h1, h2, h3, ?_, ?_⟩, ?_⟩
    · exact fun c hc => (h4 c hc).congr (fun i hi => hl i (by simp [mem_idsL.2 ⟨c, hc, hi⟩]))
        (fun i hi => he i (by simp [mem_idsL.2 ⟨c, hc, hi⟩]))
    · exact fun c hc => (h5 c hc).congr (fun i hi => hl i (by simp [mem_idsL.2 ⟨c, hc, hi⟩]))
        (fun i hi => he i (by simp [mem_idsL.2 ⟨c, hc, hi⟩]))
    · exact ih h6 (fun i hi => hl i (by simp [hi])) (fun i hi => he i (by simp [hi]))

theorem CtxEx.congr {E' : Nat → Prop} {b : Box} {ctx : Ctx} (hw : CtxEx E b ctx)
    (he : ∀ i ∈ ctxIds ctx, E i → E' i) : CtxEx E' b ctx := by
  induction ctx generalizing b with
  | nil => trivial
  | cons f ctx ih =>
    simp only [ctxIds, List.mem_append, List.mem_cons] at he
    exact ⟨hw.1.imp (he _ (by simp)) (fun x => x), ih hw.2 (fun i hi => he i (by simp [hi]))⟩

theorem CtxUp.congr {E' : Nat → Prop} {ctx : Ctx} (hw : CtxUp E ctx)
    (he : ∀ i ∈ ctxIds ctx, E i → E' i) : CtxUp E' ctx := by
  cases ctx with
  | nil => trivial
  | cons f ctx =>
    simp only [ctxIds, List.mem_append, List.mem_cons] at he
    exact CtxEx.congr hw (fun i hi => he i (by simp [hi]))

end RTree
end Marco
