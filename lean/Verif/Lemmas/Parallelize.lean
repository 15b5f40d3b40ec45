import Verif.Spec.Parallelize
import Verif.Props.C03_Subtract
import Mathlib.Data.List.Nodup
import Mathlib.Data.List.Perm.Subperm
import Mathlib.Data.List.Range

/-! # Schedule parallelization: helper lemmas -/

namespace Marco.Par
open Spec

/-! ### Dependencies -/

theorem mem_getWrites {blocks : List Blk} (hw : WellFormedBlocks blocks) {i : Nat} {bi : Blk}
    (hi : blocks[i]? = some bi) {r : Access} (hr : r ∈ bi.reads) (j : Nat) :
    j ∈ getWrites blocks r ↔ ∃ bj, blocks[j]? = some bj ∧ ReadsFrom r bj := by
  have himem : bi ∈ blocks := List.mem_of_getElem? hi
  unfold getWrites
  split
  · rename_i he
    rw [List.isEmpty_iff] at he
    have hsc : ∀ b, writesScalar b r.var = true ↔ ReadsFrom r b := by
      intro b
      simp only [writesScalar, List.any_eq_true, Bool.and_eq_true, beq_iff_eq, List.isEmpty_iff,
        ReadsFrom, he, true_and]
      constructor
      · rintro ⟨w, h1, h2, h3⟩; exact ⟨w, h1, h2.symm, Or.inl h3⟩
      · rintro ⟨w, h1, h2, h3 | ⟨p, ⟨_, h, _⟩, _⟩⟩
        · exact ⟨w, h1, h2.symm, h3⟩
        · cases h
    have hmem : ∀ k, k ∈ ((List.range blocks.length).filter fun j =>
        (blocks[j]?.map (writesScalar · r.var)).getD false) ↔
        ∃ bk, blocks[k]? = some bk ∧ ReadsFrom r bk := by
      intro k
      simp only [List.mem_filter, List.mem_range]
      constructor
      · rintro ⟨h1, h2⟩
        rw [List.getElem?_eq_getElem h1] at h2
        exact ⟨_, List.getElem?_eq_getElem h1, (hsc _).1 (by simpa using h2)⟩
      · rintro ⟨bk, h1, h2⟩
        refine ⟨(List.getElem?_eq_some_iff.1 h1).1, ?_⟩
        simp [h1, (hsc bk).2 h2]
    generalize hl : ((List.range blocks.length).filter fun j =>
        (blocks[j]?.map (writesScalar · r.var)).getD false) = l at hmem
    rw [← hmem j]
    constructor
    · intro h
      rw [Option.mem_toList] at h
      exact List.mem_of_getLast? h
    · intro h
      cases hg : l.getLast? with
      | none =>
        rw [List.getLast?_eq_none_iff] at hg
        rw [hg] at h; cases h
      | some k =>
        have hk : k ∈ l := List.mem_of_getLast? hg
        obtain ⟨bj, h1, w, h2, h3, h4⟩ := (hmem j).1 h
        obtain ⟨bk, h1', w', h2', h3', h4'⟩ := (hmem k).1 hk
        have e1 : w.indices = [] := by
          rcases h4 with h4 | ⟨p, ⟨_, h, _⟩, _⟩
          · exact h4.2
          · rw [he] at h; cases h
        have e2 : w'.indices = [] := by
          rcases h4' with h4 | ⟨p, ⟨_, h, _⟩, _⟩
          · exact h4.2
          · rw [he] at h; cases h
        have := hw.single j k bj bk h1 h1' w h2 w' h2' (by rw [← h3, ← h3']) e1 e2
        simp [this]
  · rename_i he
    rw [List.isEmpty_iff] at he
    obtain ⟨rk, hrk⟩ := hw.rank
    have har : ∀ b ∈ blocks, writesArray b r.var r.indices = true ↔ ReadsFrom r b := by
      intro b hb
      simp only [writesArray, List.any_eq_true, Bool.and_eq_true, beq_iff_eq, ReadsFrom]
      constructor
      · rintro ⟨w, h1, h2, x, hx, y, hy, ho⟩
        refine ⟨w, h1, h2.symm, Or.inr ?_⟩
        obtain ⟨p, hp1, hp2⟩ := (Props.overlaps_iff x y
          (by rw [hrk b hb w (by simp [h1]) x hx, hrk bi himem r (by simp [hr]) y hy, h2])
          (hw.valid b hb w (by simp [h1]) x hx) (hw.valid bi himem r (by simp [hr]) y hy)).1 ho
        exact ⟨p, ⟨y, hy, hp2⟩, ⟨x, hx, hp1⟩⟩
      · rintro ⟨w, h1, h2, h3 | ⟨p, ⟨y, hy, hp2⟩, ⟨x, hx, hp1⟩⟩⟩
        · exact absurd h3.1 he
        · refine ⟨w, h1, h2.symm, x, hx, y, hy, ?_⟩
          exact (Props.overlaps_iff x y
            (by rw [hrk b hb w (by simp [h1]) x hx, hrk bi himem r (by simp [hr]) y hy, h2])
            (hw.valid b hb w (by simp [h1]) x hx) (hw.valid bi himem r (by simp [hr]) y hy)).2
            ⟨p, hp1, hp2⟩
    simp only [List.mem_filter, List.mem_range]
    constructor
    · rintro ⟨h1, h2⟩
      rw [List.getElem?_eq_getElem h1] at h2
      exact ⟨_, List.getElem?_eq_getElem h1, (har _ (List.getElem_mem h1)).1 (by simpa using h2)⟩
    · rintro ⟨bj, h1, h2⟩
      refine ⟨(List.getElem?_eq_some_iff.1 h1).1, ?_⟩
      simp [h1, (har bj (List.mem_of_getElem? h1)).2 h2]

theorem nodup_getWrites (blocks : List Blk) (r : Access) : (getWrites blocks r).Nodup := by
  unfold getWrites
  split
  · cases List.getLast? _ <;> simp
  · exact List.nodup_range.filter _

theorem mem_found {blocks : List Blk} (hw : WellFormedBlocks blocks) (i j : Nat) :
    j ∈ found blocks i ↔ BlockDepends blocks i j := by
  simp only [found, List.mem_filter, List.mem_flatMap, bne_iff_ne, ne_eq, BlockDepends]
  cases hi : blocks[i]? with
  | none => simp
  | some bi =>
    simp only [Option.map_some, Option.getD_some]
    constructor
    · rintro ⟨⟨r, hr, hj⟩, hne⟩
      obtain ⟨bj, h1, h2⟩ := (mem_getWrites hw hi hr j).1 hj
      exact ⟨fun h => hne h.symm, bi, bj, rfl, h1, r, hr, h2⟩
    · rintro ⟨hne, b', bj, he, h1, r, hr, h2⟩
      obtain rfl := Option.some.inj he
      exact ⟨⟨r, hr, (mem_getWrites hw hi hr j).2 ⟨bj, h1, h2⟩⟩, fun h => hne h.symm⟩

theorem mem_dependants {blocks : List Blk} (hw : WellFormedBlocks blocks) (i j : Nat) :
    i ∈ dependants blocks j ↔ BlockDepends blocks i j := by
  simp only [dependants, List.mem_filter, List.mem_range, List.contains_iff_mem, mem_found hw]
  constructor
  · exact fun h => h.2
  · intro h
    obtain ⟨_, bi, _, h1, _⟩ := id h
    exact ⟨(List.getElem?_eq_some_iff.1 h1).1, h⟩

/-! ### The loop -/

/-- A graph with `n` blocks, and the degrees at the beginning. -/
structure Kahn (dep : Nat → List Nat) (n : Nat) (deg0 : Nat → Nat) : Prop where
  nodup : ∀ j, (dep j).Nodup
  bound : ∀ j, ∀ i ∈ dep j, i < n
  enough : ∀ i, i < n → (List.range n).countP (fun j => decide (i ∈ dep j)) ≤ deg0 i

/-- The invariant: blocks done, blocks waiting with degree 0. -/
structure Inv (dep : Nat → List Nat) (n : Nat) (deg0 deg : Nat → Nat) (done wait : List Nat) : Prop where
  nodup : (done ++ wait).Nodup
  bound : ∀ i ∈ done ++ wait, i < n
  count : ∀ i, i < n → deg i + done.countP (fun j => decide (i ∈ dep j)) = deg0 i
  zero : ∀ i, i < n → (i ∈ done ++ wait ↔ deg i = 0)

theorem count_le {n : Nat} {l : List Nat} (h : l.Nodup) (hb : ∀ i ∈ l, i < n)
    (p : Nat → Bool) : l.countP p ≤ (List.range n).countP p :=
  (h.subperm (fun i hi => List.mem_range.2 (hb i hi))).countP_le p

/-- All blocks a block of degree 0 depends on are done. -/
theorem Inv.preds {dep : Nat → List Nat} {n : Nat} {deg0 deg : Nat → Nat} {done wait : List Nat}
    (hk : Kahn dep n deg0) (h : Inv dep n deg0 deg done wait) {i j : Nat} (hi : i < n) (hj : j < n)
    (hz : deg i = 0) (hij : i ∈ dep j) : j ∈ done := by
  by_contra hnd
  have hd : done.Nodup := (List.nodup_append.1 h.nodup).1
  have h1 : (j :: done).Nodup := List.nodup_cons.2 ⟨hnd, hd⟩
  have h2 := count_le h1 (n := n) (by
    intro k hk'
    rcases List.mem_cons.1 hk' with rfl | hk'
    · exact hj
    · exact h.bound k (by simp [hk'])) (fun k => decide (i ∈ dep k))
  rw [List.countP_cons_of_pos (by simpa using hij)] at h2
  have := hk.enough i hi
  have := h.count i hi
  omega

theorem release_spec (L : List Nat) : ∀ (deg : Nat → Nat) (new : List Nat), L.Nodup →
    (∀ i ∈ L, deg i ≠ 0) →
    release L deg new = some (fun k => if k ∈ L then deg k - 1 else deg k,
      new ++ L.filter (fun i => deg i == 1)) := by
  induction L with
  | nil => intro deg new _ _; simp [release]
  | cons i is ih =>
    intro deg new hn hp
    obtain ⟨hni, hn'⟩ := List.nodup_cons.1 hn
    simp only [release, hp i (by simp), if_false, if_true]
    rw [ih _ _ hn']
    · congr 1
      refine Prod.ext ?_ ?_
      · funext k
        by_cases hk : k = i
        · subst hk; simp [hni]
        · simp [hk]
      · have hfil : is.filter (fun k => (if k = i then deg i - 1 else deg k) == 1)
            = is.filter (fun k => deg k == 1) := by
          apply List.filter_congr
          intro k hk
          have : k ≠ i := fun h => hni (h ▸ hk)
          simp [this]
        simp only [hfil]
        have hpos := hp i (by simp)
        by_cases h1 : deg i = 1
        · simp [h1]
        · have : deg i - 1 ≠ 0 := by omega
          simp [h1, this]
    · intro k hk
      have : k ≠ i := fun h => hni (h ▸ hk)
      simp only [this, if_false]
      exact hp k (by simp [hk])

/-- Placing a block. -/
theorem Inv.place {dep : Nat → List Nat} {n : Nat} {deg0 deg : Nat → Nat} {done bs new : List Nat}
    (hk : Kahn dep n deg0) {b : Nat} (h : Inv dep n deg0 deg done (b :: bs ++ new)) :
    ∃ deg' new', release (dep b) deg new = some (deg', new') ∧
      Inv dep n deg0 deg' (done ++ [b]) (bs ++ new') := by
  have hb : b < n := h.bound b (by simp)
  have hnd : (done ++ (b :: (bs ++ new))).Nodup := h.nodup
  have hbd : b ∉ done := by
    intro hc
    exact (List.nodup_append.1 hnd).2.2 b hc b (by simp) rfl
  have hpos : ∀ i ∈ dep b, deg i ≠ 0 := fun i hi hz =>
    hbd (h.preds hk (hk.bound b i hi) hb hz hi)
  refine ⟨_, _, release_spec (dep b) deg new (hk.nodup b) hpos, ?_, ?_, ?_, ?_⟩
  · -- no repetitions
    have hperm : (done ++ [b] ++ (bs ++ (new ++ (dep b).filter fun i => deg i == 1))).Perm
        ((done ++ (b :: (bs ++ new))) ++ (dep b).filter fun i => deg i == 1) := by
      simp
    rw [hperm.nodup_iff, List.nodup_append]
    refine ⟨hnd, (hk.nodup b).filter _, ?_⟩
    rintro x hx y hy rfl
    rw [List.mem_filter] at hy
    exact hpos x hy.1 ((h.zero x (hk.bound b x hy.1)).1 (by simpa using hx))
  · intro i hi
    simp only [List.mem_append, List.mem_filter, List.mem_singleton] at hi
    rcases hi with (hi | rfl) | hi | hi | hi
    · exact h.bound i (by simp [hi])
    · exact hb
    · exact h.bound i (by simp [hi])
    · exact h.bound i (by simp [hi])
    · exact hk.bound b i hi.1
  · intro i hi
    have := h.count i hi
    rw [List.countP_append]
    by_cases hc : i ∈ dep b
    · have := hpos i hc
      simp only [hc, if_true, List.countP_singleton, decide_true, ↓reduceIte]
      omega
    · simp only [hc, if_false, List.countP_singleton, decide_false, Bool.false_eq_true]
      omega
  · intro i hi
    have hz := h.zero i hi
    simp only [List.mem_append, List.mem_filter, List.mem_singleton, List.cons_append,
      List.mem_cons, beq_iff_eq, List.not_mem_nil, or_false] at hz ⊢
    by_cases hc : i ∈ dep b
    · have := hpos i hc
      simp only [hc, if_true, true_and]
      have hnz : ¬ (i ∈ done ∨ i = b ∨ i ∈ bs ∨ i ∈ new) := fun h => this (hz.1 h)
      constructor
      · rintro ((h | h) | h | h | h)
        · exact absurd (Or.inl h) hnz
        · exact absurd (Or.inr (Or.inl h)) hnz
        · exact absurd (Or.inr (Or.inr (Or.inl h))) hnz
        · exact absurd (Or.inr (Or.inr (Or.inr h))) hnz
        · omega
      · intro h
        exact Or.inr (Or.inr (Or.inr (by omega)))
    · simp only [hc, if_false, false_and, or_false]
      rw [← hz]
      constructor
      · rintro ((h | h) | h | h)
        · exact Or.inl h
        · exact Or.inr (Or.inl h)
        · exact Or.inr (Or.inr (Or.inl h))
        · exact Or.inr (Or.inr (Or.inr h))
      · rintro (h | h | h | h)
        · exact Or.inl (Or.inl h)
        · exact Or.inl (Or.inr h)
        · exact Or.inr (Or.inl h)
        · exact Or.inr (Or.inr h)

/-- One pass. -/
theorem pass_spec {dep : Nat → List Nat} {n : Nat} {deg0 : Nat → Nat} (hk : Kahn dep n deg0)
    (max : ℤ) (cur : List Nat) : ∀ (deg : Nat → Nat) (done ind new : List Nat),
    Inv dep n deg0 deg (done ++ ind) (cur ++ new) →
    (max ≠ -1 → (ind.length : ℤ) ≤ Max.max max 0) →
    ∃ deg' ind' new', pass dep max cur deg ind new = some (deg', ind ++ ind', new') ∧
      Inv dep n deg0 deg' (done ++ (ind ++ ind')) new' ∧ ind'.Sublist cur ∧
      (max ≠ -1 → ((ind ++ ind').length : ℤ) ≤ Max.max max 0) ∧
      (cur ≠ [] → room max ind = true → ind' ≠ []) := by
  induction cur with
  | nil =>
    intro deg done ind new h hs
    exact ⟨deg, [], new, by simp [pass], by simpa using h, by simp, by simpa using hs, by simp⟩
  | cons b bs ih =>
    intro deg done ind new h hs
    have hz : deg b = 0 := (h.zero b (h.bound b (by simp))).1 (by simp)
    by_cases hr : room max ind = true
    · obtain ⟨deg1, new1, h1, h2⟩ := h.place hk
      have hs' : max ≠ -1 → ((ind ++ [b]).length : ℤ) ≤ Max.max max 0 := by
        intro hm
        simp only [room, Bool.or_eq_true, beq_iff_eq, hm, decide_eq_true_eq, false_or] at hr
        simp only [List.length_append, List.length_cons, List.length_nil]
        push_cast
        omega
      obtain ⟨deg', ind', new', h3, h4, h5, h6, h7⟩ := ih deg1 done (ind ++ [b]) new1
        (by simpa using h2) hs'
      refine ⟨deg', b :: ind', new', ?_, ?_, h5.cons_cons b, ?_, ?_⟩
      · simp only [pass, hz, ne_eq, not_true_eq_false, if_false, hr, if_true, h1, Option.bind_eq_bind,
          Option.bind_some, h3]
        simp
      · simpa using h4
      · simpa using h6
      · simp
    · have hinv : Inv dep n deg0 deg (done ++ ind) (bs ++ (new ++ [b])) := by
        have hp : (done ++ ind ++ (bs ++ (new ++ [b]))).Perm (done ++ ind ++ (b :: bs ++ new)) := by
          refine List.Perm.append_left _ ?_
          rw [← List.append_assoc]
          exact (List.perm_append_singleton b (bs ++ new)).trans (by simp)
        exact ⟨hp.nodup_iff.2 h.nodup, fun i hi => h.bound i (hp.mem_iff.1 hi), h.count,
          fun i hi => by rw [hp.mem_iff]; exact h.zero i hi⟩
      obtain ⟨deg', ind', new', h3, h4, h5, h6, h7⟩ := ih deg done ind (new ++ [b]) hinv hs
      refine ⟨deg', ind', new', ?_, h4, h5.cons b, h6, fun _ hc => absurd hc hr⟩
      simp only [pass, hz, ne_eq, not_true_eq_false, if_false, hr]
      exact h3

/-- What the groups satisfy, given the blocks done before. -/
structure GroupsOk (dep : Nat → List Nat) (n : Nat) (max : ℤ) (done : List Nat)
    (gs : List (List Nat)) : Prop where
  nodup : (done ++ gs.flatten).Nodup
  bound : ∀ i ∈ done ++ gs.flatten, i < n
  order : ∀ pre g post, gs = pre ++ g :: post → ∀ i ∈ g, ∀ j, j < n → i ∈ dep j →
    j ∈ done ++ pre.flatten
  size : max ≠ -1 → ∀ g ∈ gs, (g.length : ℤ) ≤ max

theorem loop_spec {dep : Nat → List Nat} {n : Nat} {deg0 : Nat → Nat} (hk : Kahn dep n deg0)
    (max : ℤ) (hm : max = -1 ∨ 0 < max) (fuel : Nat) : ∀ (cur : List Nat) (deg : Nat → Nat)
    (done : List Nat), Inv dep n deg0 deg done cur → n < fuel + done.length →
    ∃ gs deg', loop dep max fuel cur deg = some gs ∧ GroupsOk dep n max done gs ∧
      Inv dep n deg0 deg' (done ++ gs.flatten) [] := by
  induction fuel with
  | zero =>
    intro cur deg done h hf
    have h1 : done.length ≤ n := by
      have := (List.nodup_append.1 h.nodup).1.subperm
        (fun i hi => List.mem_range.2 (h.bound i (by simp [hi])) : done ⊆ List.range n)
      simpa using this.length_le
    omega
  | succ fuel ih =>
    intro cur deg done h hf
    by_cases hc : cur = []
    · subst hc
      refine ⟨[], deg, by simp [loop], ⟨?_, ?_, ?_, by simp⟩, by simpa using h⟩
      · simpa using h.nodup
      · simpa using h.bound
      · intro pre g post he; simp at he
    · have hroom : room max [] = true := by
        rcases hm with rfl | hm
        · rfl
        · simp [room, hm]
      obtain ⟨deg1, ind, new, h1, h2, h3, h4, h5⟩ := pass_spec hk max cur deg done [] []
        (by simpa using h) (by intro _; simp)
      have hind : ind ≠ [] := h5 hc hroom
      simp only [List.nil_append] at h1 h2 h4
      have hlen : 0 < ind.length := List.length_pos_iff.2 hind
      obtain ⟨gs, deg', h6, h7, h8⟩ := ih new deg1 (done ++ ind) h2 (by
        rw [List.length_append]; omega)
      refine ⟨ind :: gs, deg', ?_, ⟨?_, ?_, ?_, ?_⟩, by simpa using h8⟩
      · have e1 : cur.isEmpty = false := by simpa using hc
        have e2 : ind.isEmpty = false := by simpa using hind
        simp only [loop, e1, h1, Option.bind_eq_bind, Option.bind_some, e2, h6, Bool.false_eq_true,
          if_false]
      · simpa using h7.nodup
      · simpa using h7.bound
      · intro pre g post he i hi j hj hij
        cases pre with
        | nil =>
          simp only [List.nil_append, List.cons.injEq] at he
          obtain ⟨rfl, rfl⟩ := he
          have hicur : i ∈ cur := h3.subset hi
          have hin : i < n := h.bound i (by simp [hicur])
          have := h.preds hk hin hj ((h.zero i hin).1 (by simp [hicur])) hij
          simpa using this
        | cons g' pre' =>
          simp only [List.cons_append, List.cons.injEq] at he
          obtain ⟨rfl, rfl⟩ := he
          have := h7.order pre' g post rfl i hi j hj hij
          simpa using this
      · intro hm1 g hg
        rcases List.mem_cons.1 hg with rfl | hg
        · have := h4 hm1
          omega
        · exact h7.size hm1 g hg

theorem kahn_blocks (blocks : List Blk) : Kahn (dependants blocks) blocks.length (inDegree blocks) := by
  refine ⟨fun j => List.nodup_range.filter _, fun j i hi => ?_, fun i _ => ?_⟩
  · exact List.mem_range.1 (List.mem_filter.1 hi).1
  · rw [List.countP_eq_length_filter]
    refine (List.Nodup.subperm (List.nodup_range.filter _) ?_).length_le
    intro j hj
    simp only [List.mem_filter, decide_eq_true_eq, dependants, List.contains_iff_mem] at hj
    exact hj.2.2

theorem inv_start (blocks : List Blk) : Inv (dependants blocks) blocks.length (inDegree blocks)
    (inDegree blocks) [] ((List.range blocks.length).filter fun i => inDegree blocks i == 0) := by
  refine ⟨by simpa using List.nodup_range.filter _, ?_, by simp, ?_⟩
  · intro i hi
    simp only [List.nil_append, List.mem_filter, List.mem_range] at hi
    exact hi.1
  · intro i hi
    simp [hi]

end Marco.Par
