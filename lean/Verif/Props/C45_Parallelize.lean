import Verif.Lemmas.Parallelize

/-! # C45 — grouping blocks for parallel execution -/

namespace Marco.Props
open Marco.Par Spec

/-- C45 at full strength: with acyclic dependencies, and either no limit or a positive one, the
groups in the order in which they are emitted contain every block once, after the blocks it depends
on, and the blocks of a group are independent and within the limit. -/
def C45_full : Prop :=
  ∀ (blocks : List Blk) (max : ℤ), WellFormedBlocks blocks → AcyclicBlocks blocks →
    (max = -1 ∨ 0 < max) →
    ∃ gs, rewritten blocks max = some gs ∧ GoodGroups blocks max gs

/-- A block writing the scalars 0 and 1, and one reading them both. -/
def C45_blocks : List Blk :=
  [⟨[], [⟨0, []⟩, ⟨1, []⟩]⟩, ⟨[⟨0, []⟩, ⟨1, []⟩], []⟩]

theorem C45_blocks_wf : WellFormedBlocks C45_blocks := by
  refine ⟨by decide, ⟨fun _ => 0, by decide⟩, ?_⟩
  intro i j bi bj hi hj w hw w' hw' _ _ _
  have key : ∀ (k : Nat) (b : Blk) (x : Access), C45_blocks[k]? = some b → x ∈ b.writes → k = 0 := by
    intro k b x hk hx
    match k, hk with
    | 0, _ => rfl
    | 1, hk => simp only [C45_blocks, List.getElem?_cons_succ, List.getElem?_cons_zero,
        Option.some.injEq] at hk; subst hk; simp at hx
    | k + 2, hk => simp [C45_blocks] at hk
  rw [key i bi w hi hw, key j bj w' hj hw']

theorem C45_blocks_dep (i j : Nat) (h : BlockDepends C45_blocks i j) : i = 1 ∧ j = 0 := by
  have h' := (mem_found C45_blocks_wf i j).2 h
  match i, h' with
  | 0, h' =>
    have e : found C45_blocks 0 = [] := by decide
    rw [e] at h'; cases h'
  | 1, h' =>
    have e : found C45_blocks 1 = [0, 0] := by decide
    rw [e] at h'
    refine ⟨rfl, ?_⟩
    simpa using h'
  | i + 2, h' =>
    have e : found C45_blocks (i + 2) = [] := by simp [found, C45_blocks]
    rw [e] at h'; cases h'

theorem C45_blocks_acyclic : AcyclicBlocks C45_blocks :=
  ⟨id, fun i j h => by obtain ⟨rfl, rfl⟩ := C45_blocks_dep i j h; decide⟩

/-- The property fails: a block that reads two variables written by the same block counts that block
twice among those it waits for, while the block releases it once; it is never put in a group, and it
is executed before all the groups, hence before the block it depends on. -/
theorem C45_parallelize_false : ¬ C45_full := by
  intro h
  obtain ⟨gs, h1, h2⟩ := h C45_blocks (-1) C45_blocks_wf C45_blocks_acyclic (Or.inl rfl)
  have e : rewritten C45_blocks (-1) = some [[1], [0]] := by decide
  rw [e, Option.some.injEq] at h1
  subst h1
  have hd : BlockDepends C45_blocks 1 0 := (mem_found C45_blocks_wf 1 0).1 (by decide)
  have := h2.order [] [1] [[0]] rfl 1 (by simp) 0 hd
  simp at this

/-- With the groups in which the algorithm puts blocks, before the others are added, what the
property says of the blocks that are in a group always holds: none is repeated, each comes after the
blocks it depends on, the blocks of a group are independent, and the limit is respected.  There is
no hypothesis on cycles. -/
theorem C45_groups_partial (blocks : List Blk) (max : ℤ) (hw : WellFormedBlocks blocks)
    (hm : max = -1 ∨ 0 < max) :
    ∃ gs, parallelize blocks max = some gs ∧ gs.flatten.Nodup ∧
      (∀ i ∈ gs.flatten, i < blocks.length) ∧
      (∀ pre g post, gs = pre ++ g :: post → ∀ i ∈ g, ∀ j, BlockDepends blocks i j →
        j ∈ pre.flatten) ∧
      (∀ g ∈ gs, ∀ i ∈ g, ∀ j ∈ g, ¬ BlockDepends blocks i j) ∧
      (max ≠ -1 → ∀ g ∈ gs, (g.length : ℤ) ≤ max) := by
  obtain ⟨gs, deg', h1, h2, _⟩ := loop_spec (kahn_blocks blocks) max hm (blocks.length + 1) _ _ []
    (inv_start blocks) (by simp)
  have hord : ∀ pre g post, gs = pre ++ g :: post → ∀ i ∈ g, ∀ j, BlockDepends blocks i j →
      j ∈ pre.flatten := by
    intro pre g post he i hi j hd
    obtain ⟨_, _, bj, _, hj, _⟩ := id hd
    have := h2.order pre g post he i hi j (List.getElem?_eq_some_iff.1 hj).1
      ((mem_dependants hw i j).2 hd)
    simpa using this
  have hnd : gs.flatten.Nodup := by simpa using h2.nodup
  refine ⟨gs, h1, hnd, by simpa using h2.bound, hord, ?_, h2.size⟩
  intro g hg i hi j hj hd
  obtain ⟨pre, post, rfl⟩ := List.append_of_mem hg
  have := hord pre g post rfl i hi j hd
  rw [List.flatten_append, List.flatten_cons, List.nodup_append] at hnd
  exact hnd.2.2 j this j (by simp [hj]) rfl

/-- The whole property, for programs in which a block reads what another one writes through at most
one of its read accesses. -/
theorem C45_parallelize_partial (blocks : List Blk) (max : ℤ) (hw : WellFormedBlocks blocks)
    (hac : AcyclicBlocks blocks) (hm : max = -1 ∨ 0 < max)
    (hone : ∀ (i j : Nat) (bi bj : Blk), blocks[i]? = some bi → blocks[j]? = some bj → i ≠ j →
      bi.reads.Pairwise fun r r' => ¬ (ReadsFrom r bj ∧ ReadsFrom r' bj)) :
    ∃ gs, rewritten blocks max = some gs ∧ GoodGroups blocks max gs := by
  obtain ⟨gs, deg', h1, h2, h3⟩ := loop_spec (kahn_blocks blocks) max hm (blocks.length + 1) _ _ []
    (inv_start blocks) (by simp)
  obtain ⟨gs', h1', hnd, hb, hord, hind, hsz⟩ := C45_groups_partial blocks max hw hm
  have e : gs = gs' := Option.some.inj (h1.symm.trans h1')
  subst e
  simp only [List.nil_append] at h3
  -- each writer is counted once
  have hfound : ∀ i, (found blocks i).Nodup := by
    intro i
    unfold found
    cases hi : blocks[i]? with
    | none => simp
    | some bi =>
      simp only [Option.map_some, Option.getD_some]
      rw [List.filter_flatMap, List.nodup_flatMap]
      refine ⟨fun r _ => (nodup_getWrites blocks r).filter _, ?_⟩
      have hall : ∀ j (bj : Blk), blocks[j]? = some bj → i ≠ j → bi.reads.Pairwise
          fun r r' => ¬ (ReadsFrom r bj ∧ ReadsFrom r' bj) := fun j bj hj hne =>
        hone i j bi bj hi hj hne
      rw [List.pairwise_iff_getElem]
      intro a b ha hb' hab
      simp only [Function.onFun]
      intro j hj1 hj2
      simp only [List.mem_filter, bne_iff_ne, ne_eq] at hj1 hj2
      obtain ⟨bj, h4, h5⟩ := (mem_getWrites hw hi (List.getElem_mem ha) j).1 hj1.1
      obtain ⟨bj', h6, h7⟩ := (mem_getWrites hw hi (List.getElem_mem hb') j).1 hj2.1
      rw [h4] at h6
      obtain rfl := Option.some.inj h6
      exact (List.pairwise_iff_getElem.1 (hall j bj h4 (fun h => hj1.2 h.symm))) a b ha hb' hab
        ⟨h5, h7⟩
  -- every block is in a group
  obtain ⟨rank, hrank⟩ := hac
  have hall : ∀ k i, rank i ≤ k → i < blocks.length → i ∈ gs.flatten := by
    intro k
    induction k using Nat.strong_induction_on with
    | _ k ih =>
      intro i hk hi
      have hz := h3.zero i hi
      simp only [List.append_nil] at hz
      rw [hz]
      have hc := h3.count i hi
      have hle : (found blocks i).length ≤ gs.flatten.countP
          (fun j => decide (i ∈ dependants blocks j)) := by
        rw [List.countP_eq_length_filter]
        refine ((hfound i).subperm ?_).length_le
        intro j hj
        have hd := (mem_found hw i j).1 hj
        obtain ⟨_, _, bj, _, h5, _⟩ := id hd
        have hr := hrank i j hd
        rw [List.mem_filter]
        exact ⟨ih (rank j) (by omega) j (Nat.le_refl _) (List.getElem?_eq_some_iff.1 h5).1,
          by simpa using (mem_dependants hw i j).2 hd⟩
      have : inDegree blocks i = (found blocks i).length := rfl
      omega
  have hperm : gs.flatten.Perm (List.range blocks.length) := by
    rw [List.perm_ext_iff_of_nodup hnd List.nodup_range]
    intro i
    rw [List.mem_range]
    exact ⟨hb i, fun hi => hall _ i (Nat.le_refl _) hi⟩
  refine ⟨gs, ?_, hperm, hord, hind, hsz⟩
  unfold rewritten
  rw [h1']
  have : (List.range blocks.length).filter (fun i => !gs.flatten.contains i) = [] := by
    rw [List.filter_eq_nil_iff]
    intro i hi
    simp [List.contains_iff_mem, -List.mem_flatten, hperm.mem_iff.2 hi]
  simp only [Option.bind_eq_bind, Option.bind_some, this]
  rfl

/-- A diamond: block 0 writes elements 0 and 1 of an array, blocks 1 and 2 read one each and write a
scalar each, block 3 reads the scalars. -/
def C45_diamond : List Blk :=
  [⟨[], [⟨0, [[⟨0, 2⟩]]⟩]⟩,
   ⟨[⟨0, [[⟨0, 1⟩]]⟩], [⟨1, []⟩]⟩,
   ⟨[⟨0, [[⟨1, 2⟩]]⟩], [⟨2, []⟩]⟩,
   ⟨[⟨1, []⟩, ⟨2, []⟩], [⟨3, []⟩]⟩]

theorem C45_diamond_wf : WellFormedBlocks C45_diamond := by
  refine ⟨by decide, ⟨fun v => if v = 0 then 1 else 0, by decide⟩, ?_⟩
  have key : ∀ i < 4, ∀ j < 4, ∀ bi ∈ C45_diamond[i]?, ∀ bj ∈ C45_diamond[j]?, ∀ w ∈ bi.writes,
      ∀ w' ∈ bj.writes, w.var = w'.var → i = j := by decide
  intro i j bi bj hi hj w hw w' hw' hv _ _
  exact key i (List.getElem?_eq_some_iff.1 hi).1 j (List.getElem?_eq_some_iff.1 hj).1 bi hi bj hj
    w hw w' hw' hv

/-- The hypotheses of the theorem hold for the diamond. -/
example : ∃ gs, rewritten C45_diamond 1 = some gs ∧ GoodGroups C45_diamond 1 gs := by
  refine C45_parallelize_partial C45_diamond 1 C45_diamond_wf ⟨id, ?_⟩ (Or.inr (by decide)) ?_
  · intro i j hd
    have hi : i < 4 := by
      obtain ⟨_, _, _, h, _⟩ := hd
      exact (List.getElem?_eq_some_iff.1 h).1
    have key : ∀ i < 4, ∀ j ∈ found C45_diamond i, j < i := by decide
    exact key i hi j ((mem_found C45_diamond_wf i j).2 hd)
  · intro i j bi bj hi hj _
    have hi' : i < 4 := (List.getElem?_eq_some_iff.1 hi).1
    rw [List.pairwise_iff_getElem]
    intro a b ha hb hab hc
    have h1 := (mem_getWrites C45_diamond_wf hi (List.getElem_mem ha) j).2 ⟨bj, hj, hc.1⟩
    have h2 := (mem_getWrites C45_diamond_wf hi (List.getElem_mem hb) j).2 ⟨bj, hj, hc.2⟩
    have key : ∀ i < 4, ∀ bi ∈ C45_diamond[i]?, ∀ b < bi.reads.length, ∀ a < b,
        List.all ((bi.reads[a]?.map (getWrites C45_diamond)).getD []) (fun j =>
        !((bi.reads[b]?.map (getWrites C45_diamond)).getD []).contains j) = true := by decide
    have hk := key i hi' bi hi b hb a hab
    rw [List.all_eq_true] at hk
    have h3 := hk j (by simpa [List.getElem?_eq_getElem ha] using h1)
    rw [Bool.not_eq_true', ← Bool.not_eq_true, List.contains_iff_mem] at h3
    refine h3 ?_
    simpa [List.getElem?_eq_getElem hb] using h2

example : rewritten C45_diamond (-1) = some [[0], [1, 2], [3]] := by decide
example : rewritten C45_diamond 1 = some [[0], [1], [2], [3]] := by decide

end Marco.Props
