import Verif.Lemmas.TreeTotal

/-!
# C16: insertion keeps the spatial tree well formed

Proved for the trees whose `postObjectInsertionHook` does nothing (RTree.h:1152-1154, the class
`RTree`), for every admissible choice made by the heuristics and in particular for those of the
library. The hook of the index sets merges objects, so that a leaf may have fewer entries after an
insertion than before: this is the subject of C07.
-/

namespace Marco.Props
open Marco Spec RTree

/-- Insertion in a well-formed tree, whatever the choices: there is no undefined behaviour, no loop
without end, the tree is well formed and its objects are the old ones and the new one. -/
theorem C16_insert (C : Cfg) (hC : AnyChoice C) (hook : ∀ l, C.hook l = l) (k next fuel : Nat)
    (t : Node) (ht : TreeInv C.mn C.mx k t) (hids : ∀ i ∈ t.ids, i < next) (b : Box)
    (hb : Ranked k b) :
    ∃ t' next', insert C fuel (some t) next b = .ok (some t', next') ∧ TreeInv C.mn C.mx k t' ∧
      t'.objects.Perm (b :: t.objects) ∧ (∀ i ∈ t'.ids, i < next') := by
  have hk : C.HookOk k :=
    ⟨fun l hl => by rw [hook]; exact .refl hl, fun b => by rw [hook]⟩
  obtain ⟨_, hfan⟩ := treeOk_of_inv hC.mn ht hids
  obtain ⟨t', next', ctx, d, h1, h2, h3, _, _, h6, h7, _⟩ := insert_total C hC hk
    (fun l _ => by rw [hook]) fuel ht hids hb (by
      intro ctx d hcl hctx
      have hl := chooseLeaf_leaf hcl
      obtain ⟨_, hdf⟩ := chooseLeaf_fan (mn := C.mn) (mx := C.mx) (ctx := []) trivial hfan hcl
      have := hdf.2.1 hctx
      rw [fanOut_leaf hl] at this
      rw [hook, List.length_append]
      omega)
  refine ⟨t', next', h1, h2, ?_, h3⟩
  rw [hook, List.append_assoc] at h6
  exact h6.trans (List.perm_middle.trans (h7.symm.cons b))

/-- Insertion in an empty tree. -/
theorem C16_insert_empty (C : Cfg) (hC : AnyChoice C) (hook : ∀ l, C.hook l = l) (k next fuel : Nat)
    (b : Box) (hb : Ranked k b) :
    ∃ t' next', insert C fuel none next b = .ok (some t', next') ∧ TreeInv C.mn C.mx k t' ∧
      t'.objects = [b] ∧ (∀ i ∈ t'.ids, i < next') := by
  have hmn := hC.mn
  have hmx := hC.mx
  refine ⟨_, _, rfl, ?_, ?_, ?_⟩
  · have hok : TreeOk (fun _ => 0) noE k 0 (next + 1) (.mk next b [] (C.hook [b])) := by
      refine ⟨⟨⟨rfl, hb, .inr ?_⟩, rfl, ?_, ?_⟩, ?_, ?_⟩
      · rw [hook]; rfl
      · rw [hook]; simp [Node.obs_mk]
      · rw [hook]; simpa [Node.obs_mk] using hb
      · simp [Node.ids_eq, Node.id_mk, Node.ch_mk, Node.idsL]
      · simp [Node.ids_eq, Node.id_mk, Node.ch_mk, Node.idsL]
    refine inv_of_treeOk hok ⟨?_, fun hh => absurd rfl hh, by simp [Node.ch_mk]⟩
    rw [fanOut_leaf rfl, Node.obs_mk, hook]
    simp only [List.length_cons, List.length_nil]
    omega
  · rw [Node.objects_leaf rfl, Node.obs_mk, hook]
  · simp [Node.ids_eq, Node.id_mk, Node.ch_mk, Node.idsL]

/-- The heuristics of the library make admissible choices, for all the limits accepted by the
constructor. -/
theorem C16_heuristics (mn mx : Nat) (h1 : 1 ≤ mn) (h2 : 2 * mn ≤ mx) : AnyChoice (stdCfg mn mx) :=
  stdCfg_anyChoice h1 h2

/-- Insert objects one after the other. -/
def insertAll (C : Cfg) (fuel : Nat) : Option Node × Nat → List Box → Res (Option Node × Nat)
  | s, [] => .ok s
  | s, b :: bs => do
    let s ← insert C fuel s.1 s.2 b
    insertAll C fuel s bs

/-- Any history of insertions in a tree of the library gives a well-formed tree with exactly the
inserted objects. -/
theorem C16_history (mn mx : Nat) (h1 : 1 ≤ mn) (h2 : 2 * mn ≤ mx) (k fuel : Nat) (bs : List Box)
    (hne : bs ≠ []) (hbs : ∀ b ∈ bs, Ranked k b) :
    ∃ t next, insertAll (stdCfg mn mx) fuel (none, 0) bs = .ok (some t, next) ∧ TreeInv mn mx k t ∧
      t.objects.Perm bs := by
  have hC := C16_heuristics mn mx h1 h2
  have main : ∀ (bs : List Box) (t : Node) (next : Nat), (∀ b ∈ bs, Ranked k b) →
      TreeInv mn mx k t → (∀ i ∈ t.ids, i < next) →
      ∃ t' next', insertAll (stdCfg mn mx) fuel (some t, next) bs = .ok (some t', next') ∧
        TreeInv mn mx k t' ∧ t'.objects.Perm (bs ++ t.objects) := by
    intro bs
    induction bs with
    | nil => exact fun t next _ ht _ => ⟨t, next, rfl, ht, List.Perm.refl _⟩
    | cons b bs ih =>
      intro t next hbs ht hlt
      obtain ⟨t1, next1, e1, e2, e3, e4⟩ := C16_insert (stdCfg mn mx) hC (fun _ => rfl) k next fuel t ht
        hlt b (hbs b (by simp))
      obtain ⟨t', next', f1, f2, f3⟩ := ih t1 next1 (fun b hb => hbs b (by simp [hb])) e2 e4
      refine ⟨t', next', ?_, f2, f3.trans ?_⟩
      · rw [insertAll, except_bind_of_ok e1]; exact f1
      · exact (e3.append_left bs).trans List.perm_middle
  cases bs with
  | nil => exact absurd rfl hne
  | cons b bs =>
    obtain ⟨t1, next1, e1, e2, e3, e4⟩ := C16_insert_empty (stdCfg mn mx) hC (fun _ => rfl) k 0 fuel b
      (hbs b (by simp))
    obtain ⟨t', next', f1, f2, f3⟩ := main bs t1 next1 (fun b hb => hbs b (by simp [hb])) e2 e4
    refine ⟨t', next', ?_, f2, f3.trans ?_⟩
    · rw [insertAll, except_bind_of_ok e1]; exact f1
    · rw [e3]; exact List.perm_append_singleton b bs

-- Twenty points with at most four entries per node: the root is split twice.
example : (insertAll (stdCfg 2 4) 0 (none, 0)
    ((List.range 20).map fun i : Nat => Box.ofPoint [(i : Int), 3 * i])).toOption.map
      (fun r => r.1.map fun t => (t.ch.map fun c => c.ch.length, t.bd)) =
    some (some ([2, 2, 3], [⟨0, 20⟩, ⟨0, 58⟩])) := by decide +kernel

-- The hypotheses of `C16_insert` are met by the tree that this history builds.
example : ∃ t next, insertAll (stdCfg 2 4) 0 (none, 0)
      ((List.range 20).map fun i : Nat => Box.ofPoint [(i : Int), 3 * i]) = .ok (some t, next) ∧
    TreeInv 2 4 2 t ∧ t.objects.length = 20 := by
  obtain ⟨t, next, h1, h2, h3⟩ := C16_history 2 4 (by decide) (by decide) 2 0
    ((List.range 20).map fun i : Nat => Box.ofPoint [(i : Int), 3 * i]) (by simp) (by
      intro b hb
      obtain ⟨i, _, rfl⟩ := List.mem_map.1 hb
      refine ⟨⟨by simp [Box.ofPoint], ?_⟩, by simp [Box.ofPoint]⟩
      intro r hr
      simp only [Box.ofPoint, List.map_cons, List.map_nil, List.mem_cons, List.not_mem_nil,
        or_false] at hr
      rcases hr with rfl | rfl <;> simp [Range.Valid])
  exact ⟨t, next, h1, h2, by rw [h3.length_eq]; simp⟩

end Marco.Props
