import Verif.Lemmas.IndexSetUpdate
import Verif.Lemmas.TreeTotal

/-!
# C07: an index set behaves as a mathematical set of points after any history of insertions

False of the code as it stands: the hook that merges the objects of a leaf may leave it with fewer
than `minElements` objects; the collapse of a leaf relocates its objects, whereby the same leaf may
be pushed twice on `nodesToCollapse` (RTree.h:1093), and is used after having been destroyed. The
history of `C07_history_false` does so with 26 insertions of rank 2.

Whenever a history is executed without undefined behaviour the result is exact, and this is the case
of all the histories of boxes that cannot be merged, and of all those that fit in a leaf.
-/

namespace Marco.Props
open Marco Spec RTree IndexSet

/-- The full claim C07. (That the loops terminate is not part of it.) -/
def C07_full : Prop := ∀ (k : Nat) (ops : List InsertOp), (∀ o ∈ ops, o.Valid k) → ∀ fuel,
  runInserts cfg fuel IndexSet.empty ops ≠ .error .ub ∧
  ∀ s, runInserts cfg fuel IndexSet.empty ops = .ok s → ∀ p : Point, p.length = k → 0 < k →
    (s.containsPoint p = true ↔ ∃ o ∈ ops, o.Has p)

/-- A history of insertions whose last step uses a destroyed node. -/
def badHistory : List Box :=
  ([55, 60, 65, 70, 80, 90, 100, 110].map fun y => Box.ofPoint [50, y]) ++
  ([0, 10, 20, 30, 70, 80, 90, 100, 105].map fun x => Box.ofPoint [x, 50]) ++
  ([[49, 47], [60, 100], [100, 44], [49, 46], [49, 48]].map Box.ofPoint) ++
  [[⟨1, 105⟩, ⟨50, 51⟩], [⟨50, 51⟩, ⟨55, 90⟩], [⟨50, 51⟩, ⟨100, 110⟩], [⟨50, 51⟩, ⟨90, 101⟩]]

theorem C07_history_false : ¬ C07_full := by
  intro h
  refine (h 2 (badHistory.map .box) ?_ 100).1 ?_
  · have h2 : ∀ b ∈ badHistory, Ranked 2 b := by unfold Ranked; decide +kernel
    intro o ho
    obtain ⟨b, hb, rfl⟩ := List.mem_map.1 ho
    exact h2 b hb
  · have : (match runInserts cfg 100 IndexSet.empty (badHistory.map .box) with
      | .error .ub => true
      | _ => false) = true := by decide +kernel
    generalize runInserts cfg 100 IndexSet.empty (badHistory.map .box) = r at this
    match r, this with
    | .error .ub, _ => rfl

/-- One insertion, if it is executed without undefined behaviour. -/
theorem run_spec {C : Cfg} {k fuel : Nat} (hC : C.Sound) (hk : C.HookOk k) {s s' : IndexSet}
    (hs : StoredOk k s) {o : InsertOp} (ho : o.Valid k) (h : o.run C fuel s = .ok s') :
    StoredOk k s' ∧ (∀ p, Has s' p ↔ o.Has p ∨ Has s p) ∧ (DisjL s.ranges → DisjL s'.ranges) := by
  cases o with
  | point q =>
    obtain ⟨h1, h2, h3⟩ := insertBox_spec hC hk hs (ofPoint_ranked ho.1 ho.2) h
    refine ⟨h1, fun p => ?_, h3⟩
    rw [h2, inB_ofPoint]
    rfl
  | box b => exact insertBox_spec hC hk hs ho h
  | set t => exact insertBoxes_spec hC hk hs (ranges_ranked ho) h

/-- A history of insertions, if it is executed without undefined behaviour. -/
theorem runInserts_spec {C : Cfg} {k fuel : Nat} (hC : C.Sound) (hk : C.HookOk k) :
    ∀ {ops : List InsertOp} {s s' : IndexSet}, StoredOk k s → (∀ o ∈ ops, o.Valid k) →
    runInserts C fuel s ops = .ok s' →
    StoredOk k s' ∧ (∀ p, Has s' p ↔ (∃ o ∈ ops, o.Has p) ∨ Has s p) ∧
      (DisjL s.ranges → DisjL s'.ranges)
  | [], s, s', hs, _, h => by
    simp only [runInserts, Except.ok.injEq] at h
    subst h
    exact ⟨hs, fun p => by simp, id⟩
  | o :: os, s, s', hs, ho, h => by
    rw [runInserts, except_bind_ok] at h
    obtain ⟨s1, h1, h2⟩ := h
    obtain ⟨i1, i2, i3⟩ := run_spec hC hk hs (ho o (by simp)) h1
    obtain ⟨j1, j2, j3⟩ := runInserts_spec hC hk i1 (fun c hc => ho c (by simp [hc])) h2
    refine ⟨j1, fun p => ?_, fun hd => j3 (i3 hd)⟩
    rw [j2, i2]
    simp only [List.mem_cons, exists_eq_or_imp]
    rw [or_left_comm, or_assoc]

/-- Whatever the history, the set and the point: if the insertions are executed without undefined
behaviour, then `contains` is exact and the tree is well formed. The heuristics may be any that
distribute the entries of the nodes that are split.

Missing with respect to C07: the absence of undefined behaviour, which is false in general. -/
theorem C07_exact_partial {C : Cfg} {k fuel : Nat} (hC : AnyChoice C)
    (hook : C.hook = insertionHook) {s s' : IndexSet} (hs : StoredOk k s) {ops : List InsertOp}
    (ho : ∀ o ∈ ops, o.Valid k) (h : runInserts C fuel s ops = .ok s') :
    StoredOk k s' ∧ ∀ p : Point, p.length = k → 0 < k →
      (s'.containsPoint p = true ↔ (∃ o ∈ ops, o.Has p) ∨ s.containsPoint p = true) := by
  have hk : C.HookOk k := by
    refine ⟨?_, ?_⟩ <;> rw [hook]
    · exact fun _ hl => (insertionHook_spec hl).1
    · exact insertionHook_single
  obtain ⟨h1, h2, _⟩ := runInserts_spec hC.sound hk hs ho h
  refine ⟨h1, fun p hp hk => ?_⟩
  rw [containsPoint_iff h1.setOk hp hk, containsPoint_iff hs.setOk hp hk, h2]

/-- The same, starting from the empty set with the heuristics of the library. -/
theorem C07_history_partial {k fuel : Nat} {s : IndexSet} {ops : List InsertOp}
    (ho : ∀ o ∈ ops, o.Valid k) (h : runInserts cfg fuel IndexSet.empty ops = .ok s) :
    ∀ p : Point, p.length = k → 0 < k → (s.containsPoint p = true ↔ ∃ o ∈ ops, o.Has p) := by
  intro p hp hk
  rw [(C07_exact_partial cfg_anyChoice rfl storedOk_empty ho h).2 p hp hk,
    containsPoint_iff storedOk_empty.setOk hp hk]
  simp [Has, IndexSet.empty, ranges, inL_nil]

/-! ### Histories that are executed without undefined behaviour -/

theorem apart_symm {a b : Box} (h : Apart a b) : Apart b a :=
  ⟨disj_symm h.1, fun ⟨u, hu⟩ => h.2 ⟨u, fun p => (hu p).trans or_comm⟩⟩

theorem apart_not_mergeable {k : Nat} {a b : Box} (ha : Ranked k a) (hb : Ranked k b)
    (h : Apart a b) : (a.canBeMerged b).1 = false := by
  by_contra hc
  have hm : a.canBeMerged b = (true, (a.canBeMerged b).2) := by
    rw [Bool.not_eq_false] at hc
    rw [← hc]
  exact h.2 ⟨_, (C04_merge_exact a b ha.1 hb.1 (ha.2.trans hb.2.symm) _ hm).2.2⟩

theorem findMergeable_none {k : Nat} {a : Box} (ha : Ranked k a) : ∀ {l : List Box},
    (∀ b ∈ l, Ranked k b) → (∀ b ∈ l, Apart a b) → findMergeable a l = none
  | [], _, _ => rfl
  | b :: bs, hr, h => by
    have h1 := apart_not_mergeable ha (hr b (by simp)) (h b (by simp))
    rw [findMergeable]
    split
    · rename_i d e
      rw [e] at h1
      simp at h1
    · rw [findMergeable_none ha (fun c hc => hr c (by simp [hc])) (fun c hc => h c (by simp [hc]))]
      rfl

theorem mergeOnce_none {k : Nat} : ∀ {l : List Box}, (∀ b ∈ l, Ranked k b) → l.Pairwise Apart →
    mergeOnce l = none
  | [], _, _ => rfl
  | a :: l, hr, h => by
    rw [List.pairwise_cons] at h
    have hr' : ∀ b ∈ l, Ranked k b := fun c hc => hr c (by simp [hc])
    rw [mergeOnce, findMergeable_none (hr a (by simp)) hr' h.1]
    simp only
    rw [mergeOnce_none hr' h.2]
    rfl

/-- The hook only sorts boxes that cannot be merged. -/
theorem insertionHook_perm {k : Nat} {l : List Box} (hr : ∀ b ∈ l, Ranked k b)
    (h : l.Pairwise Apart) : (insertionHook l).Perm l := by
  have hp := sortBoxes_perm l
  have h1 : mergeOnce (sortBoxes l) = none :=
    mergeOnce_none (k := k) (fun b hb => hr b (hp.mem_iff.1 hb))
      ((hp.pairwise_iff (fun h => apart_symm h)).2 h)
  have h2 : insertionHook l = sortBoxes l := by
    unfold insertionHook mergeBoxes
    cases (sortBoxes l).length with
    | zero => rfl
    | succ n => rw [mergeAll, h1]
  rw [h2]
  exact hp

theorem carve_nil (ov : Box → Bool) : ∀ (rs out : List Box), carve ov rs [] out = (out, [])
  | [], _ => rfl
  | r :: rs, out => by rw [carve]; simpa using carve_nil ov rs out

/-- A box that has no point of the set is inserted as it is. -/
theorem newPieces_disjoint {k : Nat} {s : IndexSet} (hs : SetOk k s) {b : Box} (hb : Ranked k b)
    (h : ∀ p, InB p b → ¬ Has s p) : newPieces s b = [b] := by
  unfold newPieces
  split
  · rfl
  · rw [foldl_pieceStep]
    rename_i hne
    have hne : s.ranges ≠ [] := by
      rw [ne_eq, ranges_eq_nil_iff hs]
      intro h0
      exact hne (by simp [isEmpty, h0])
    cases hr : s.ranges with
    | nil => exact absurd hr hne
    | cons r rs =>
      have hrr : Ranked k r := ranges_ranked hs r (by rw [hr]; simp)
      have h1 : b.overlaps r = false := by
        by_contra hc
        rw [Bool.not_eq_false, overlaps_iff' hb hrr] at hc
        obtain ⟨p, hp1, hp2⟩ := hc
        exact h p hp1 ⟨r, by rw [hr]; simp, hp2⟩
      have h2 : s.overlapsBox b = false := by
        by_contra hc
        rw [Bool.not_eq_false, overlapsBox_iff hs hb] at hc
        obtain ⟨p, hp1, hp2⟩ := hc
        exact h p hp2 hp1
      have h3 : b.subtract r = [b] := by simp [Box.subtract, h1]
      simp only
      rw [carve]
      simp [h3, h2, carve_nil]

/-- The index set is stored in a tree that respects the limits on the number of entries. -/
def Balanced (k : Nat) (s : IndexSet) : Prop :=
  (s.init = true → s.rank = k) ∧
  ∀ t, s.root = some t → s.init = true ∧ TreeInv cfg.mn cfg.mx k t ∧ ∀ i ∈ t.ids, i < s.next

theorem Balanced.stored {k : Nat} {s : IndexSet} (h : Balanced k s) : StoredOk k s := by
  cases hr : s.root with
  | none => exact storedOk_none hr h.1
  | some t =>
    obtain ⟨h1, h2, h3⟩ := h.2 t hr
    obtain ⟨⟨lab, H, hok⟩, _⟩ := treeOk_of_inv (by decide) h2 h3
    have := storedOk_of_treeOk hok
    have e : s = ⟨some t, true, k, s.next⟩ := by
      cases s
      simp only at hr h1
      subst hr
      subst h1
      simp only [IndexSet.mk.injEq, true_and, and_true]
      exact h.1 rfl
    rw [e]
    exact this

theorem insertObject_none {k fuel : Nat} {s : IndexSet} (hs : Balanced k s) (hr : s.root = none)
    {b : Box} (hb : Ranked k b) :
    ∃ s' t, insertObject cfg fuel s b = .ok s' ∧ Balanced k s' ∧ s'.root = some t ∧ t.ch = [] ∧
      s'.ranges = [b] := by
  have he : RTree.insert cfg fuel s.root s.next b =
      .ok (some (.mk s.next b [] (cfg.hook [b])), s.next + 1) := by rw [hr]; rfl
  have hh : cfg.hook [b] = [b] := insertionHook_single b
  rw [hh] at he
  refine ⟨⟨some (.mk s.next b [] [b]), true, if s.init then s.rank else b.length, s.next + 1⟩,
    .mk s.next b [] [b], ?_, ?_, rfl, rfl, ?_⟩
  · unfold insertObject
    rw [except_bind_of_ok he]
  · refine ⟨fun _ => ?_, ?_⟩
    · simp only
      split
      · exact hs.1 (by assumption)
      · exact hb.2
    intro t ht
    simp only [Option.some.injEq] at ht
    subst ht
    have hok : TreeOk (fun _ => 0) noE k 0 (s.next + 1) (.mk s.next b [] [b]) := by
      refine ⟨⟨⟨rfl, hb, .inr rfl⟩, rfl, by simp [Node.obs_mk], ?_⟩, ?_, ?_⟩
      · simpa [Node.obs_mk] using hb
      · simp [Node.ids_eq, Node.id_mk, Node.ch_mk, Node.idsL]
      · simp [Node.ids_eq, Node.id_mk, Node.ch_mk, Node.idsL]
    refine ⟨rfl, inv_of_treeOk hok ⟨?_, fun hh => absurd rfl hh, by simp [Node.ch_mk]⟩, hok.lt⟩
    rw [fanOut_leaf rfl, Node.obs_mk]
    exact show 1 ≤ 16 by decide
  · rw [ranges_some (n := .mk s.next b [] [b]) rfl, Node.objects_leaf rfl, Node.obs_mk]

/-- Insertion when the leaf that gets the new object keeps enough of them. -/
theorem insertObject_total {k fuel : Nat} {s : IndexSet} (hs : Balanced k s) {t : Node}
    (hr : s.root = some t) {b : Box} (hb : Ranked k b)
    (hfull : ∀ ctx d, chooseLeaf cfg b t.weight [] t = .ok (ctx, d) → ctx ≠ [] →
      minElements ≤ (insertionHook (d.obs ++ [b])).length) :
    ∃ (s' : IndexSet) (t' : Node) (ctx : Ctx) (d : Node), insertObject cfg fuel s b = .ok s' ∧ Balanced k s' ∧ s'.root = some t' ∧
      (∀ o ∈ d.obs, Ranked k o) ∧ s'.ranges.Perm (insertionHook (d.obs ++ [b]) ++ ctxObjs ctx) ∧
      s.ranges.Perm (d.obs ++ ctxObjs ctx) ∧
      (d.obs.length + 1 ≤ maxElements → t.ch = [] → t'.ch = []) := by
  obtain ⟨h0, h1, h2⟩ := hs.2 t hr
  obtain ⟨t', next', ctx, d, e1, e2, e3, _, e5, e6, e7, e8⟩ := insert_total cfg cfg_anyChoice
    (cfg_hookOk k) (fun l hl => (insertionHook_spec hl).2) fuel h1 h2 hb hfull
  refine ⟨⟨some t', true, if s.init then s.rank else b.length, next'⟩, t', ctx, d, ?_,
    ⟨fun _ => ?_, ?_⟩, rfl, e5, ?_, ?_, e8⟩
  · unfold insertObject
    rw [hr, except_bind_of_ok e1]
  · simp only
    rw [if_pos h0]
    exact hs.1 h0
  · intro t'' ht
    simp only [Option.some.injEq] at ht
    subst ht
    exact ⟨rfl, e2, e3⟩
  · rw [ranges_some (n := t') rfl]; exact e6
  · rw [ranges_some hr]; exact e7

theorem insert_apart {k fuel : Nat} {s : IndexSet} (hs : Balanced k s) {b : Box} (hb : Ranked k b)
    (h : (b :: s.ranges).Pairwise Apart) :
    ∃ s', insertBox cfg fuel s b = .ok s' ∧ Balanced k s' ∧ s'.ranges.Perm (b :: s.ranges) := by
  have hso := hs.stored.setOk
  have hno : ∀ p, InB p b → ¬ Has s p := by
    rintro p hp ⟨r, hr, hpr⟩
    exact ((List.pairwise_cons.1 h).1 r hr).1 p ⟨hp, hpr⟩
  have hone : ∀ s', insertObject cfg fuel s b = .ok s' → insertBox cfg fuel s b = .ok s' := by
    intro s' hs'
    unfold insertBox
    rw [newPieces_disjoint hso hb hno, insertObjects, except_bind_of_ok hs']
    rfl
  cases hr : s.root with
  | none =>
    obtain ⟨s', t, h1, h2, _, _, h5⟩ := insertObject_none (fuel := fuel) hs hr hb
    refine ⟨s', hone s' h1, h2, ?_⟩
    rw [h5, ranges_none hr]
  | some t =>
    have hperm : ∀ (ctx : Ctx) (d : Node), t.objects.Perm (d.obs ++ ctxObjs ctx) → (∀ o ∈ d.obs, Ranked k o) →
        (insertionHook (d.obs ++ [b])).Perm (d.obs ++ [b]) := by
      intro ctx d hp ho
      refine insertionHook_perm (k := k) ?_ ?_
      · intro x hx
        rcases List.mem_append.1 hx with hx | hx
        · exact ho x hx
        · simp only [List.mem_singleton] at hx; rw [hx]; exact hb
      · have h' : (d.obs ++ [b] ++ ctxObjs ctx).Pairwise Apart := by
          refine ((List.Perm.pairwise_iff (fun h => apart_symm h) ?_).1 h)
          rw [ranges_some hr, List.append_assoc]
          exact (hp.cons b).trans List.perm_middle.symm
        exact (List.pairwise_append.1 h').1
    obtain ⟨h0, hinv, hlt⟩ := hs.2 t hr
    obtain ⟨⟨lab, H, hok⟩, hfan⟩ := treeOk_of_inv (by decide) hinv hlt
    obtain ⟨s', t', ctx, d, e1, e2, _, e4, e5, e6, _⟩ := insertObject_total (fuel := fuel) hs hr hb (by
      intro ctx d hcl hctx
      have z0 : Zip lab noE k H s.next [] t :=
        ⟨trivial, trivial, by simpa [ctxIds] using hok.nodup, by simpa [ctxIds] using hok.lt⟩
      obtain ⟨z, wd, hpl⟩ := chooseLeaf_spec z0 hok.wf hcl
      have h2 := plug_objects ctx d
      rw [hpl, plug, Node.objects_leaf wd.2.1] at h2
      obtain ⟨_, hdf⟩ := chooseLeaf_fan (mn := cfg.mn) (mx := cfg.mx) (ctx := []) trivial hfan hcl
      have h3 := hdf.2.1 hctx
      rw [fanOut_leaf wd.2.1] at h3
      rw [(hperm ctx d h2 wd.2.2.2).length_eq, List.length_append]
      exact h3.trans (by omega))
    refine ⟨s', hone s' e1, e2, e5.trans ?_⟩
    rw [ranges_some hr] at e6 ⊢
    refine ((hperm ctx d e6 e4).append_right _).trans ?_
    rw [List.append_assoc]
    exact List.perm_middle.trans (e6.symm.cons b)

/-- Boxes that are pairwise disjoint and cannot be merged: any number of them can be inserted, in any
order. There is no undefined behaviour, all the loops terminate, and the result is exact.

Missing with respect to C07: histories in which boxes overlap or can be merged. -/
theorem C07_apart_partial {k : Nat} (fuel : Nat) {bs : List Box} (hr : ∀ b ∈ bs, Ranked k b)
    (h : bs.Pairwise Apart) :
    ∃ s, runInserts cfg fuel IndexSet.empty (bs.map .box) = .ok s ∧ s.ranges.Perm bs ∧
      (∀ t, s.root = some t → TreeInv minElements maxElements k t) ∧
      ∀ p : Point, p.length = k → 0 < k → (s.containsPoint p = true ↔ InL p bs) := by
  have main : ∀ (bs : List Box) (s : IndexSet), (∀ b ∈ bs, Ranked k b) → Balanced k s →
      (bs ++ s.ranges).Pairwise Apart →
      ∃ s', runInserts cfg fuel s (bs.map .box) = .ok s' ∧ Balanced k s' ∧
        s'.ranges.Perm (bs ++ s.ranges) := by
    intro bs
    induction bs with
    | nil => exact fun s _ hs _ => ⟨s, rfl, hs, List.Perm.refl _⟩
    | cons b bs ih =>
      intro s hr hs h
      have h1 : (b :: s.ranges).Pairwise Apart := by
        refine h.sublist ?_
        simp
      obtain ⟨s1, e1, e2, e3⟩ := insert_apart (fuel := fuel) hs (hr b (by simp)) h1
      have hp : (bs ++ s1.ranges).Perm (b :: bs ++ s.ranges) :=
        (e3.append_left bs).trans List.perm_middle
      obtain ⟨s2, f1, f2, f3⟩ := ih s1 (fun c hc => hr c (by simp [hc])) e2
        ((hp.pairwise_iff (fun h => apart_symm h)).2 h)
      refine ⟨s2, ?_, f2, f3.trans hp⟩
      rw [List.map_cons, runInserts]
      rw [except_bind_of_ok (show InsertOp.run cfg fuel s (.box b) = .ok s1 from e1)]
      exact f1
  obtain ⟨s, e1, e2, e3⟩ := main bs IndexSet.empty hr
    ⟨by simp [IndexSet.empty], by simp [IndexSet.empty]⟩ (by simpa [IndexSet.empty, ranges] using h)
  have e4 : s.ranges.Perm bs := by simpa [IndexSet.empty, ranges] using e3
  refine ⟨s, e1, e4, fun t ht => (e2.2 t ht).2.1, fun p hp hk => ?_⟩
  rw [containsPoint_iff e2.stored.setOk hp hk]
  exact inL_perm e4 p

/-- Any sixteen points: they all go to the same leaf. There is no undefined behaviour, all the loops
terminate, and the result is exact.

Missing with respect to C07: longer histories. -/
theorem C07_points_partial {k : Nat} (hk : 0 < k) (fuel : Nat) {ps : List Point}
    (hr : ∀ p ∈ ps, p.length = k) (hlen : ps.length ≤ maxElements) :
    ∃ s, runInserts cfg fuel IndexSet.empty (ps.map .point) = .ok s ∧
      ∀ p : Point, p.length = k → (s.containsPoint p = true ↔ p ∈ ps) := by
  have main : ∀ (ps : List Point) (s : IndexSet), (∀ p ∈ ps, p.length = k) → Balanced k s →
      (∀ t, s.root = some t → t.ch = []) → s.ranges.length + ps.length ≤ maxElements →
      ∃ s', runInserts cfg fuel s (ps.map .point) = .ok s' := by
    intro ps
    induction ps with
    | nil => exact fun s _ _ _ _ => ⟨s, rfl⟩
    | cons q ps ih =>
      intro s hr hs hleaf hl
      have hq := ofPoint_ranked (hr q (by simp)) hk
      rw [List.length_cons (a := q)] at hl
      have hstep : ∃ s1, insertBox cfg fuel s (Box.ofPoint q) = .ok s1 ∧ Balanced k s1 ∧
          (∀ t, s1.root = some t → t.ch = []) ∧ s1.ranges.length ≤ s.ranges.length + 1 := by
        have hso := hs.stored.setOk
        by_cases hin : Has s q
        · -- the point is already there
          have h0 : newPieces s (Box.ofPoint q) = [] := by
            obtain ⟨n1, _, n3⟩ := newPieces_spec hso hq
            rw [eq_nil_of_ranked n1]
            intro p hp
            rw [n3, inB_ofPoint] at hp
            exact hp.2 (hp.1 ▸ hin)
          refine ⟨s, ?_, hs, hleaf, by omega⟩
          unfold insertBox
          rw [h0]
          rfl
        · have h0 : newPieces s (Box.ofPoint q) = [Box.ofPoint q] :=
            newPieces_disjoint hso hq (fun p hp => by rw [inB_ofPoint] at hp; rw [hp]; exact hin)
          have hone : ∀ s', insertObject cfg fuel s (Box.ofPoint q) = .ok s' →
              insertBox cfg fuel s (Box.ofPoint q) = .ok s' := by
            intro s' hs'
            unfold insertBox
            rw [h0, insertObjects, except_bind_of_ok hs']
            rfl
          cases hroot : s.root with
          | none =>
            obtain ⟨s', t, h1, h2, h3, h4, h5⟩ := insertObject_none (fuel := fuel) hs hroot hq
            refine ⟨s', hone s' h1, h2, ?_, by rw [h5]; simp⟩
            intro t' ht'
            rw [h3, Option.some.injEq] at ht'
            rw [← ht']
            exact h4
          | some t =>
            have hch := hleaf t hroot
            obtain ⟨s', t', ctx, d, e1, e2, e3, e4, e5, e6, e7⟩ :=
              insertObject_total (fuel := fuel) hs hroot hq (by
                intro ctx d hcl hctx
                exfalso
                have hl : t.isLeaf = true := by simp [Node.isLeaf, hch]
                have : chooseLeaf cfg (Box.ofPoint q) t.weight [] t = .ok ([], t) := by
                  cases t.weight <;> simp [chooseLeaf, hl]
                rw [this] at hcl
                simp only [Except.ok.injEq, Prod.mk.injEq] at hcl
                exact hctx hcl.1.symm)
            have l1 := e6.length_eq
            rw [List.length_append] at l1
            have l2 := e5.length_eq
            rw [List.length_append] at l2
            have l3 := (insertionHook_spec (k := k) (l := d.obs ++ [Box.ofPoint q]) (by
              intro x hx
              rcases List.mem_append.1 hx with hx | hx
              · exact e4 x hx
              · simp only [List.mem_singleton] at hx; rw [hx]; exact hq)).2
            rw [List.length_append, List.length_singleton] at l3
            refine ⟨s', hone s' e1, e2, ?_, by omega⟩
            intro t'' ht''
            rw [e3, Option.some.injEq] at ht''
            rw [← ht'']
            exact e7 (by omega) hch
      obtain ⟨s1, f1, f2, f3, f4⟩ := hstep
      obtain ⟨s', g⟩ := ih s1 (fun p hp => hr p (by simp [hp])) f2 f3 (by omega)
      refine ⟨s', ?_⟩
      rw [List.map_cons, runInserts]
      rw [except_bind_of_ok (show InsertOp.run cfg fuel s (.point q) = .ok s1 from f1)]
      exact g
  obtain ⟨s, h⟩ := main ps IndexSet.empty hr ⟨by simp [IndexSet.empty], by simp [IndexSet.empty]⟩
    (by simp [IndexSet.empty]) (by simpa [IndexSet.empty, ranges] using hlen)
  refine ⟨s, h, fun p hp => ?_⟩
  rw [C07_history_partial (k := k) (ops := ps.map .point) (by
    intro o ho
    obtain ⟨q, hq, rfl⟩ := List.mem_map.1 ho
    exact ⟨hr q hq, hk⟩) h p hp hk]
  constructor
  · rintro ⟨o, ho, hop⟩
    obtain ⟨q, hq, rfl⟩ := List.mem_map.1 ho
    have : p = q := hop
    rw [this]; exact hq
  · exact fun hp => ⟨.point p, List.mem_map.2 ⟨p, hp, rfl⟩, rfl⟩

-- The first 25 insertions of the bad history are executed; they merge the stored ranges.
example : ((runInserts cfg 100 IndexSet.empty ((badHistory.take 25).map .box)).toOption.map
    fun s => (s.ranges.length, s.size, s.containsPoint [50, 85], s.containsPoint [50, 92])) =
    some (8, 158, true, false) := by decide +kernel

-- Operands of all kinds.
example : ((runInserts cfg 100 IndexSet.empty [.box [⟨0, 3⟩, ⟨0, 3⟩], .point [5, 5],
    .set (ofRanges [[⟨2, 4⟩, ⟨2, 4⟩]])]).toOption.map
    fun s => (s.ranges.length, s.size, s.containsPoint [3, 3], s.containsPoint [3, 1])) =
    some (4, 13, true, false) := by decide +kernel

-- Boxes as required by `C07_apart_partial`.
example : [[⟨0, 3⟩, ⟨0, 3⟩], [⟨5, 6⟩, ⟨0, 3⟩]].Pairwise Apart := by
  rw [List.pairwise_cons]
  refine ⟨?_, by simp⟩
  intro b hb
  simp only [List.mem_singleton] at hb
  subst hb
  constructor
  · rintro p ⟨h1, h2⟩
    match p, h1, h2 with
    | [x, y], h1, h2 =>
      simp only [Box.inB_cons_cons, InR] at h1 h2
      omega
  · rintro ⟨u, hu⟩
    have h1 := (hu [2, 1]).2 (.inl (by simp [InB, InR]))
    have h2 := (hu [5, 1]).2 (.inr (by simp [InB, InR]))
    match u, h1, h2 with
    | [r, s], h1, h2 =>
      have h3 := (hu [3, 1]).1 (by
        simp only [Box.inB_cons_cons, InR] at h1 h2 ⊢
        refine ⟨?_, h1.2⟩
        omega)
      simp [InB, InR] at h3

end Marco.Props
