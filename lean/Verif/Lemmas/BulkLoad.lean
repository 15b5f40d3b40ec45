import Verif.Lemmas.MBR
import Mathlib.Data.List.Perm.Basic
import Mathlib.Data.List.Flatten

/-! Helper lemmas on `setFromObjects`. -/

namespace Marco
open Spec

namespace Node

theorem ids_eq (n : Node) : n.ids = n.id :: idsL n.ch := by cases n; simp [ids, id, ch]

theorem idsL_append (a b : List Node) : idsL (a ++ b) = idsL a ++ idsL b := by
  induction a with
  | nil => simp [idsL]
  | cons x xs ih => simp [idsL, ih]

theorem objectsL_append (a b : List Node) : objectsL (a ++ b) = objectsL a ++ objectsL b := by
  induction a with
  | nil => simp [objectsL]
  | cons x xs ih => simp [objectsL, ih]

end Node

namespace RTree

/-- What `mkNode` builds. -/
theorem mkNode_spec {k i : Nat} {ch : List Node} {obs : List Box} (hex : ch = [] ∨ obs = [])
    (hne : ch ≠ [] ∨ obs ≠ []) (hobs : ∀ o ∈ obs, Ranked k o) (hch : ∀ c ∈ ch, Exact k c) :
    ∃ b, mkNode i ch obs = some (.mk i b ch obs) ∧ Exact k (.mk i b ch obs) := by
  have hcb : ∃ b, computeBoundary (.mk i [] ch obs) = some b := by
    unfold computeBoundary
    by_cases hc : ch = []
    · subst hc
      simp only [Node.isLeaf, Node.ch, List.isEmpty_nil, if_true, Node.obs]
      exact mbrList_isSome (by simpa using hne)
    · have : ¬ (Node.mk i [] ch obs).isLeaf = true := by simp [Node.isLeaf, Node.ch, hc]
      rw [if_neg this]
      exact mbrList_isSome (by simp [Node.ch, hc])
  obtain ⟨b, hb⟩ := hcb
  refine ⟨b, by simp [mkNode, hb], .mk ⟨hex, hobs, ?_⟩ hch⟩
  simp only [Node.bd]
  rw [← hb]
  simp [computeBoundary, Node.isLeaf, Node.ch, Node.obs]

theorem mkLevel_spec {α : Type} {k : Nat} (mk : Nat → α → Option Node) (Q : α → Node → Prop) :
    ∀ (gs : List α) (next : Nat),
    (∀ g ∈ gs, ∀ i, ∃ n, mk i g = some n ∧ n.id = i ∧ Exact k n ∧ Q g n) →
    ∃ ns, mkLevel mk next gs = some ns ∧ ns.length = gs.length ∧ (∀ n ∈ ns, Exact k n) ∧
      List.Forall₂ Q gs ns ∧ ns.map Node.id = List.range' next gs.length
  | [], next, _ => ⟨[], by simp [mkLevel]⟩
  | g :: gs, next, h => by
    obtain ⟨n, h1, h2, h3, h4⟩ := h g (by simp) next
    obtain ⟨ns, i1, i2, i3, i4, i5⟩ := mkLevel_spec (k := k) mk Q gs (next + 1)
      (fun g hg => h g (by simp [hg]))
    refine ⟨n :: ns, by simp [mkLevel, h1, i1], by simp [i2], ?_, List.Forall₂.cons h4 i4, ?_⟩
    · intro m hm
      rcases List.mem_cons.1 hm with rfl | hm
      · exact h3
      · exact i3 m hm
    · simp [i5, h2, List.range'_succ]

theorem chunks_flatten {α : Type} (mx : Nat) (hmx : 0 < mx) : ∀ (fuel : Nat) (l : List α),
    l.length ≤ fuel → (chunks mx fuel l).flatten = l
  | 0, l, h => by
    have : l = [] := List.length_eq_zero_iff.1 (by omega)
    simp [chunks, this]
  | fuel + 1, [], _ => by simp [chunks]
  | fuel + 1, x :: xs, h => by
    have := chunks_flatten mx hmx fuel ((x :: xs).drop mx) (by simp at h ⊢; omega)
    rw [chunks, List.flatten_cons, this, List.take_append_drop]

theorem chunks_mem {α : Type} (mx : Nat) (hmx : 0 < mx) : ∀ (fuel : Nat) (l : List α),
    ∀ g ∈ chunks mx fuel l, g ≠ [] ∧ g.length ≤ mx
  | 0, l, g, hg => by simp [chunks] at hg
  | fuel + 1, [], g, hg => by simp [chunks] at hg
  | fuel + 1, x :: xs, g, hg => by
    rw [chunks, List.mem_cons] at hg
    rcases hg with rfl | hg
    · refine ⟨?_, by simp⟩
      cases mx with
      | zero => omega
      | succ m => simp
    · exact chunks_mem mx hmx fuel _ g hg

theorem chunks_length {α : Type} (mx : Nat) (hmx : 0 < mx) : ∀ (fuel : Nat) (l : List α),
    (chunks mx fuel l).length * mx < l.length + mx
  | 0, l => by simp [chunks]; omega
  | fuel + 1, [] => by simp [chunks]; omega
  | fuel + 1, x :: xs => by
    have := chunks_length mx hmx fuel ((x :: xs).drop mx)
    rw [chunks, List.length_cons, Nat.add_mul]
    by_cases hl : (x :: xs).length ≤ mx
    · have h0 : (x :: xs).drop mx = [] := by simpa using hl
      rw [h0] at this ⊢
      have h1 : chunks mx fuel ([] : List α) = [] := by cases fuel <;> rfl
      rw [h1]; simp
    · rw [List.length_drop] at this
      omega

/-- A level of nodes under construction. -/
structure LevelOk (k mx next d : Nat) (ns : List Node) : Prop where
  exact : ∀ n ∈ ns, Exact k n
  unif : ∀ n ∈ ns, Uniform d n
  fan : ∀ n ∈ ns, AllNodes (fun m => m.fanOut ≤ mx) n
  nodup : (Node.idsL ns).Nodup
  lt : ∀ i ∈ Node.idsL ns, i < next

theorem idsL_groups (next : Nat) : ∀ (gs : List (List Node)) (ns : List Node) (s : Nat),
    List.Forall₂ (fun g n => n.ch = g) gs ns → ns.map Node.id = List.range' s gs.length →
    (Node.idsL gs.flatten).Nodup → (∀ i ∈ Node.idsL gs.flatten, i < next) → next ≤ s →
    (Node.idsL ns).Nodup ∧ (∀ i ∈ Node.idsL ns, i < s + gs.length) ∧
    (∀ i ∈ Node.idsL ns, i ∈ Node.idsL gs.flatten ∨ s ≤ i)
  | [], [], s, _, _, _, _, _ => by simp [Node.idsL]
  | g :: gs, n :: ns, s, h, hid, hnd, hlt, hs => by
    obtain ⟨h1, h2⟩ := List.forall₂_cons.1 h
    rw [List.flatten_cons, Node.idsL_append] at hnd hlt
    rw [List.nodup_append] at hnd
    simp only [List.map_cons, List.length_cons, List.range'_succ, List.cons.injEq] at hid
    obtain ⟨i1, i2, i3⟩ := idsL_groups next gs ns (s + 1) h2 hid.2 hnd.2.1
      (fun i hi => hlt i (by simp [hi])) (by omega)
    have e : Node.idsL (n :: ns) = n.id :: Node.idsL g ++ Node.idsL ns := by
      simp [Node.idsL, Node.ids_eq, h1]
    rw [e]
    refine ⟨?_, ?_, ?_⟩
    · rw [List.nodup_append]
      refine ⟨List.nodup_cons.2 ⟨?_, hnd.1⟩, i1, ?_⟩
      · intro hc
        have := hlt _ (List.mem_append_left _ hc)
        omega
      · intro a ha b hb hab
        subst hab
        rcases i3 a hb with h4 | h4
        · rcases List.mem_cons.1 ha with rfl | ha
          · have := hlt _ (List.mem_append_right _ h4); omega
          · exact hnd.2.2 a ha a h4 rfl
        · rcases List.mem_cons.1 ha with rfl | ha
          · omega
          · have := hlt _ (List.mem_append_left _ ha); omega
    · intro i hi
      simp only [List.cons_append, List.mem_cons, List.mem_append, List.length_cons] at hi ⊢
      rcases hi with rfl | hi | hi
      · omega
      · have := hlt _ (List.mem_append_left _ hi); omega
      · have := i2 i hi; omega
    · intro i hi
      simp only [List.cons_append, List.mem_cons, List.mem_append] at hi
      rw [List.flatten_cons, Node.idsL_append]
      rcases hi with rfl | hi | hi
      · right; omega
      · left; exact List.mem_append_left _ hi
      · rcases i3 i hi with h4 | h4
        · left; exact List.mem_append_right _ h4
        · right; omega
  | [], _ :: _, _, h, _, _, _, _ => by cases h
  | _ :: _, [], _, h, _, _, _, _ => by cases h

theorem objectsL_groups : ∀ (gs : List (List Node)) (ns : List Node),
    List.Forall₂ (fun g n => n.ch = g) gs ns → (∀ g ∈ gs, g ≠ []) →
    Node.objectsL ns = Node.objectsL gs.flatten
  | [], [], _, _ => by simp [Node.objectsL]
  | g :: gs, n :: ns, h, hne => by
    obtain ⟨h1, h2⟩ := List.forall₂_cons.1 h
    have := objectsL_groups gs ns h2 (fun g hg => hne g (by simp [hg]))
    rw [List.flatten_cons, Node.objectsL_append, Node.objectsL, this,
      Node.objects_inner (by rw [h1]; exact hne g (by simp)), h1]
  | [], _ :: _, h, _ => by cases h
  | _ :: _, [], h, _ => by cases h

/-- One parent level. -/
theorem parentLevel_spec {k mx next d : Nat} {ns : List Node} (hmx : 1 < mx) (hl : mx < ns.length)
    (h : LevelOk k mx next d ns) :
    ∃ ns', mkLevel (fun i g => mkNode i g []) next (chunks mx ns.length ns) = some ns' ∧
      LevelOk k mx (next + ns'.length) (d + 1) ns' ∧ Node.objectsL ns' = Node.objectsL ns ∧
      ns' ≠ [] ∧ ns'.length < ns.length := by
  have hfl := chunks_flatten mx (by omega) ns.length ns le_rfl
  have hmem := chunks_mem mx (by omega) ns.length ns
  have hsub : ∀ g ∈ chunks mx ns.length ns, ∀ c ∈ g, c ∈ ns := by
    intro g hg c hc
    rw [← hfl]; exact List.mem_flatten.2 ⟨g, hg, hc⟩
  obtain ⟨ns', i1, i2, i3, i4, i5⟩ := mkLevel_spec (k := k) (fun i g => mkNode i g [])
    (fun g n => n.ch = g ∧ n.obs = []) (chunks mx ns.length ns) next (by
      intro g hg i
      obtain ⟨b, h1, h2⟩ := mkNode_spec (k := k) (i := i) (ch := g) (obs := []) (Or.inr rfl)
        (Or.inl (hmem g hg).1) (by simp) (fun c hc => h.exact c (hsub g hg c hc))
      exact ⟨_, h1, rfl, h2, rfl, rfl⟩)
  have i4' : List.Forall₂ (fun g n => n.ch = g) (chunks mx ns.length ns) ns' :=
    i4.imp fun _ _ h => h.1
  have hch : ∀ n ∈ ns', n.ch ∈ chunks mx ns.length ns := by
    have : ∀ (gs : List (List Node)) (l : List Node), List.Forall₂ (fun g n => n.ch = g) gs l →
        ∀ n ∈ l, n.ch ∈ gs := by
      intro gs l hf
      induction hf with
      | nil => simp
      | cons h1 _ ih =>
        intro n hn
        rcases List.mem_cons.1 hn with rfl | hn
        · simp [h1]
        · exact List.mem_cons_of_mem _ (ih n hn)
    exact this _ _ i4'
  have hids := idsL_groups next (chunks mx ns.length ns) ns' next i4' i5 (by rw [hfl]; exact h.nodup)
    (by rw [hfl]; exact h.lt) le_rfl
  refine ⟨ns', i1, ⟨i3, ?_, ?_, hids.1, by rw [i2]; exact hids.2.1⟩, ?_, ?_, ?_⟩
  · intro n hn
    exact .inner (hmem _ (hch n hn)).1 fun c hc => h.unif c (hsub _ (hch n hn) c hc)
  · intro n hn
    refine .mk ?_ fun c hc => h.fan c (hsub _ (hch n hn) c hc)
    have : n.isLeaf = false := by simp [Node.isLeaf, (hmem _ (hch n hn)).1]
    simp only [Node.fanOut, this, Bool.false_eq_true, if_false]
    exact (hmem _ (hch n hn)).2
  · rw [objectsL_groups _ _ i4' (fun g hg => (hmem g hg).1), hfl]
  · intro hn
    rw [hn] at i2
    have : chunks mx ns.length ns = [] := List.length_eq_zero_iff.1 (by simpa using i2.symm)
    rw [this] at hfl
    simp at hfl
    rw [hfl] at hl
    simp at hl
  · rw [i2]
    have h1 := chunks_length mx (by omega) ns.length ns
    by_contra hc
    have h2 : ns.length * mx ≤ (chunks mx ns.length ns).length * mx :=
      Nat.mul_le_mul_right _ (by omega)
    obtain ⟨m, rfl⟩ : ∃ m, mx = m + 2 := ⟨mx - 2, by omega⟩
    have h3 : ns.length * (m + 2) = ns.length * m + ns.length * 2 := by rw [Nat.mul_add]
    have h4 : m ≤ ns.length * m := Nat.le_mul_of_pos_left _ (by omega)
    omega

theorem levelsLoop_spec {k mx : Nat} (hmx : 1 < mx) : ∀ (fuel next d : Nat) (ns : List Node),
    ns.length ≤ fuel → ns ≠ [] → LevelOk k mx next d ns →
    ∃ next' d' ns', levelsLoop mx fuel next ns = some (next', ns') ∧ LevelOk k mx next' d' ns' ∧
      Node.objectsL ns' = Node.objectsL ns ∧ ns' ≠ [] ∧ ns'.length ≤ mx
  | 0, next, d, ns, hf, hne, h => by
    have : ns = [] := List.length_eq_zero_iff.1 (by omega)
    exact absurd this hne
  | fuel + 1, next, d, ns, hf, hne, h => by
    by_cases hl : mx < ns.length
    · obtain ⟨ns', i1, i2, i3, i4, i5⟩ := parentLevel_spec hmx hl h
      obtain ⟨n2, d2, ns2, j1, j2, j3, j4, j5⟩ :=
        levelsLoop_spec hmx fuel (next + ns'.length) (d + 1) ns' (by omega) i4 i2
      refine ⟨n2, d2, ns2, ?_, j2, j3.trans i3, j4, j5⟩
      rw [levelsLoop, if_pos hl, i1]
      exact j1
    · exact ⟨next, d, ns, by rw [levelsLoop, if_neg hl], h, rfl, hne, by omega⟩

/-! Leaf groups -/

theorem leafGroups_length (mn : Nat) (objs : List Box) :
    (leafGroups mn objs).length = objs.length / mn := by simp [leafGroups]

theorem leafGroups_mem {mn : Nat} {objs : List Box} (hmn : 0 < mn) :
    ∀ g ∈ leafGroups mn objs, mn ≤ g.length ∧ g.length ≤ mn + 1 ∧ ∀ o ∈ g, o ∈ objs := by
  intro g hg
  simp only [leafGroups, List.mem_map, List.mem_range] at hg
  obtain ⟨i, hi, rfl⟩ := hg
  have h1 : (i + 1) * mn ≤ objs.length := by
    have := Nat.div_mul_le_self objs.length mn
    have h2 : (i + 1) * mn ≤ objs.length / mn * mn := Nat.mul_le_mul_right _ hi
    omega
  rw [Nat.add_mul] at h1
  refine ⟨?_, ?_, ?_⟩
  · simp only [List.length_append, List.length_take, List.length_drop]; omega
  · simp only [List.length_append, List.length_take, List.length_drop]; omega
  · intro o ho
    rcases List.mem_append.1 ho with ho | ho
    · exact List.mem_of_mem_drop (List.mem_of_mem_take ho)
    · exact List.mem_of_mem_drop (List.mem_of_mem_take ho)

/-- Interleaving: the concatenation of the groups is a permutation of the objects. -/
theorem flatMap_append_perm {α β : Type} (l : List α) (f g : α → List β) :
    (l.flatMap fun x => f x ++ g x).Perm (l.flatMap f ++ l.flatMap g) := by
  induction l with
  | nil => simp
  | cons a as ih =>
    simp only [List.flatMap_cons]
    have h1 : (f a ++ g a ++ as.flatMap fun x => f x ++ g x).Perm
        (f a ++ g a ++ (as.flatMap f ++ as.flatMap g)) := List.Perm.append_left _ ih
    refine h1.trans ?_
    simp only [List.append_assoc]
    refine List.Perm.append_left _ ?_
    rw [← List.append_assoc, ← List.append_assoc]
    exact List.Perm.append_right _ List.perm_append_comm

theorem range_take_groups {α : Type} (mn : Nat) (l : List α) : ∀ g : Nat,
    ((List.range g).flatMap fun i => (l.drop (i * mn)).take mn) = l.take (g * mn)
  | 0 => by simp
  | g + 1 => by
    rw [List.range_succ, List.flatMap_append, range_take_groups mn l g, Nat.add_mul, Nat.one_mul,
      List.take_add]
    simp

theorem range_take_one {α : Type} (l : List α) : ∀ g : Nat,
    ((List.range g).flatMap fun i => (l.drop i).take 1) = l.take g := by
  intro g
  have := range_take_groups 1 l g
  simpa using this

theorem leafGroups_perm {mn : Nat} {objs : List Box} (hmn : 0 < mn) (h : mn * mn ≤ objs.length + mn) :
    (leafGroups mn objs).flatten.Perm objs := by
  have e : (leafGroups mn objs).flatten = (List.range (objs.length / mn)).flatMap fun i =>
      ((objs.drop (i * mn)).take mn) ++ ((objs.drop (objs.length / mn * mn + i)).take 1) := by
    simp [leafGroups, List.flatMap_def]
  rw [e]
  refine (flatMap_append_perm _ _ _).trans ?_
  rw [range_take_groups]
  have e2 : ((List.range (objs.length / mn)).flatMap fun i =>
      (objs.drop (objs.length / mn * mn + i)).take 1) = objs.drop (objs.length / mn * mn) := by
    have := range_take_one (objs.drop (objs.length / mn * mn)) (objs.length / mn)
    simp only [List.drop_drop] at this
    rw [this, List.take_of_length_le]
    rw [List.length_drop]
    have h1 := Nat.mod_add_div objs.length mn
    have h2 := Nat.mod_lt objs.length hmn
    rw [Nat.mul_comm] at h1
    -- remaining < mn ≤ number of groups
    have h3 : mn - 1 ≤ objs.length / mn := by
      rw [Nat.le_div_iff_mul_le hmn, Nat.sub_mul]
      omega
    omega
  rw [e2, List.take_append_drop]

theorem objectsL_leaves : ∀ (gs : List (List Box)) (ns : List Node),
    List.Forall₂ (fun g n => n.ch = [] ∧ n.obs = g) gs ns → Node.objectsL ns = gs.flatten
  | [], [], _ => by simp [Node.objectsL]
  | g :: gs, n :: ns, h => by
    obtain ⟨h1, h2⟩ := List.forall₂_cons.1 h
    rw [Node.objectsL, objectsL_leaves gs ns h2, Node.objects_leaf h1.1, h1.2, List.flatten_cons]
  | [], _ :: _, h => by cases h
  | _ :: _, [], h => by cases h

theorem leafLevel_spec {k mx : Nat} (gs : List (List Box)) (hne : ∀ g ∈ gs, g ≠ [])
    (hr : ∀ g ∈ gs, ∀ o ∈ g, Ranked k o) (hmx : ∀ g ∈ gs, g.length ≤ mx) :
    ∃ ns, mkLevel (fun i g => mkNode i [] g) 0 gs = some ns ∧ ns.length = gs.length ∧
      LevelOk k mx ns.length 0 ns ∧ List.Forall₂ (fun g n => n.ch = [] ∧ n.obs = g) gs ns := by
  obtain ⟨ns, i1, i2, i3, i4, i5⟩ := mkLevel_spec (k := k) (fun i g => mkNode i [] g)
    (fun g n => n.ch = [] ∧ n.obs = g) gs 0 (by
      intro g hg i
      obtain ⟨b, h1, h2⟩ := mkNode_spec (k := k) (i := i) (ch := []) (obs := g) (Or.inl rfl)
        (Or.inr (hne g hg)) (hr g hg) (by simp)
      exact ⟨_, h1, rfl, h2, rfl, rfl⟩)
  have hch : ∀ n ∈ ns, n.ch = [] ∧ n.obs ∈ gs := by
    have : ∀ (gs : List (List Box)) (l : List Node),
        List.Forall₂ (fun g n => n.ch = [] ∧ n.obs = g) gs l → ∀ n ∈ l, n.ch = [] ∧ n.obs ∈ gs := by
      intro gs l hf
      induction hf with
      | nil => simp
      | cons h1 _ ih =>
        intro n hn
        rcases List.mem_cons.1 hn with rfl | hn
        · simp [h1]
        · have := ih n hn
          exact ⟨this.1, List.mem_cons_of_mem _ this.2⟩
    exact this _ _ i4
  have hids : ∀ l : List Node, (∀ n ∈ l, n.ch = []) → Node.idsL l = l.map Node.id := by
    intro l
    induction l with
    | nil => simp [Node.idsL]
    | cons a as ih =>
      intro h
      rw [Node.idsL, Node.ids_eq, h a (by simp), ih (fun n hn => h n (by simp [hn]))]
      simp [Node.idsL]
  have e := hids ns (fun n hn => (hch n hn).1)
  refine ⟨ns, i1, i2, ⟨i3, fun n hn => .leaf (hch n hn).1, ?_, ?_, ?_⟩, i4⟩
  · intro n hn
    refine .mk ?_ (by simp [(hch n hn).1])
    simp only [Node.fanOut, Node.isLeaf, (hch n hn).1, List.isEmpty_nil, if_true]
    exact hmx _ (hch n hn).2
  · rw [e, i5]; exact List.nodup_range' 
  · rw [e, i5, i2]
    intro i hi
    simpa [List.mem_range'] using hi

/-- The specification of `setFromObjects`, except for the minimum fan-out. -/
theorem setFromObjects_spec {k mn mx : Nat} (hmn : 0 < mn) (hmx : 2 * mn ≤ mx)
    (hsq : mn * mn ≤ mx + 1 + mn) {objs : List Box}
    (hne : objs ≠ []) (hr : ∀ o ∈ objs, Ranked k o) :
    ∃ next n d, setFromObjects mn mx objs = some (next, n) ∧ Exact k n ∧ n.objects.Perm objs ∧
      Uniform d n ∧ AllNodes (fun m => m.fanOut ≤ mx) n ∧ n.ids.Nodup ∧ (∀ i ∈ n.ids, i < next) := by
  have hleaf : ∃ leaves, mkLevel (fun i g => mkNode i [] g) 0
        (if objs.length > mx then leafGroups mn objs else [objs]) = some leaves ∧ leaves ≠ [] ∧
      LevelOk k mx leaves.length 0 leaves ∧ (Node.objectsL leaves).Perm objs := by
    by_cases hl : objs.length > mx
    · rw [if_pos hl]
      have hm := leafGroups_mem (objs := objs) hmn
      obtain ⟨ns, i1, i2, i3, i4⟩ := leafLevel_spec (k := k) (mx := mx) (leafGroups mn objs)
        (fun g hg => by
          have := (hm g hg).1
          intro h; rw [h] at this; simp at this; omega)
        (fun g hg o ho => hr o ((hm g hg).2.2 o ho))
        (fun g hg => by have := (hm g hg).2.1; omega)
      refine ⟨ns, i1, ?_, i3, ?_⟩
      · intro h
        rw [h, leafGroups_length] at i2
        have : 0 < objs.length / mn := Nat.div_pos (by omega) hmn
        simp at i2
        omega
      · rw [objectsL_leaves _ _ i4]
        exact leafGroups_perm hmn (by omega)
    · rw [if_neg hl]
      obtain ⟨ns, i1, i2, i3, i4⟩ := leafLevel_spec (k := k) (mx := mx) [objs]
        (by simpa using hne) (by simpa using hr) (by simp; omega)
      refine ⟨ns, i1, ?_, i3, ?_⟩
      · intro h; rw [h] at i2; simp at i2
      · rw [objectsL_leaves _ _ i4]; simp
  obtain ⟨leaves, l1, l2, l3, l4⟩ := hleaf
  obtain ⟨next, d, ns, j1, j2, j3, j4, j5⟩ :=
    levelsLoop_spec (k := k) (mx := mx) (by omega) leaves.length leaves.length 0 leaves le_rfl l2 l3
  unfold setFromObjects
  rw [l1]
  simp only [Option.bind_eq_bind, Option.bind_some, j1]
  match ns, j4 with
  | [n], _ =>
    refine ⟨next, n, d, rfl, j2.exact n (by simp), ?_, j2.unif n (by simp), j2.fan n (by simp), ?_, ?_⟩
    · have : n.objects = Node.objectsL leaves := by rw [← j3]; simp [Node.objectsL]
      rw [this]; exact l4
    · have := j2.nodup; simpa [Node.idsL] using this
    · have := j2.lt; simpa [Node.idsL] using this
  | a :: b :: rest, _ =>
    obtain ⟨bx, h1, h2⟩ := mkNode_spec (k := k) (i := next) (ch := a :: b :: rest) (obs := [])
      (Or.inr rfl) (Or.inl (by simp)) (by simp) j2.exact
    simp only [h1, Option.bind_some]
    refine ⟨next + 1, _, d + 1, rfl, h2, ?_, ?_, ?_, ?_, ?_⟩
    · rw [Node.objects_inner (by simp [Node.ch])]
      simp only [Node.ch]
      rw [j3]; exact l4
    · exact .inner (by simp [Node.ch]) j2.unif
    · refine .mk ?_ j2.fan
      have : (Node.mk next bx (a :: b :: rest) []).isLeaf = false := by simp [Node.isLeaf, Node.ch]
      simp only [Node.fanOut, this, Bool.false_eq_true, if_false, Node.ch]
      exact j5
    · rw [Node.ids_eq]
      refine List.nodup_cons.2 ⟨?_, j2.nodup⟩
      intro hc
      have := j2.lt _ hc
      simp [Node.id] at this
    · intro i hi
      rw [Node.ids_eq] at hi
      rcases List.mem_cons.1 hi with rfl | hi
      · simp
      · have := j2.lt i hi; omega

end RTree
end Marco
