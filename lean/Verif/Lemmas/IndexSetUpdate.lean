import Verif.Lemmas.TreeInv
import Verif.Lemmas.IndexSetOps

/-! Helper lemmas about the in-place updates of index sets. -/

namespace Marco
namespace IndexSet
open Spec RTree

variable {k : Nat}

theorem _root_.Marco.Spec.StoredOk.setOk {s : IndexSet} (h : StoredOk k s) : SetOk k s :=
  ⟨h.tight, fun hr => h.rank (h.init hr)⟩

theorem tight_exact {n : Node} (h : Tight k n) : Exact k n := by
  refine exact_of_mbr ?_ ?_ ?_ ?_ ?_
  · exact h.imp fun m hm => hm.excl
  · exact h.imp fun m hm => hm.bd
  · exact h.imp fun m hm => hm.mbr
  · refine h.imp fun m hm => ?_
    by_contra hc
    rw [not_or, not_not, not_not] at hc
    exact hm.nonempty (by rw [Node.objects_leaf hc.1, hc.2])
  · intro o ho
    exact (Covers.objects h.covers ho).1

theorem _root_.Marco.Spec.StoredOk.treeOk {s : IndexSet} {t : Node} (h : StoredOk k s) (ht : s.root = some t) :
    ∃ lab H, TreeOk lab noE k H s.next t := by
  obtain ⟨d, hd⟩ := h.depth t ht
  obtain ⟨a1, a2⟩ := h.addrs t ht
  obtain ⟨lab, hl⟩ := wf_of_exact (tight_exact (h.tight t ht)) hd a1
  exact ⟨lab, d, hl, a1, a2⟩

theorem storedOk_of_treeOk {t : Node} {lab : Nat → Nat} {H next : Nat}
    (h : TreeOk lab noE k H next t) : StoredOk k ⟨some t, true, k, next⟩ := by
  obtain ⟨h1, h2⟩ := h.wf.exact
  refine ⟨?_, ?_, ?_, fun _ => rfl, fun _ => rfl⟩ <;> intro t' ht <;>
    simp only [Option.some.injEq] at ht <;> subst ht
  · exact h1.tight
  · exact ⟨_, h2⟩
  · exact ⟨h.nodup, h.lt⟩

theorem storedOk_none {s : IndexSet} (h : s.root = none) (hr : s.init = true → s.rank = k) :
    StoredOk k s := by
  refine ⟨?_, ?_, ?_, ?_, hr⟩ <;> simp [h]

theorem storedOk_empty : StoredOk k IndexSet.empty := storedOk_none rfl (by simp [IndexSet.empty])

theorem insertionHook_single (b : Box) : insertionHook [b] = [b] := by
  simp [insertionHook, sortBoxes, mergeBoxes, mergeAll, mergeOnce, findMergeable]

theorem cfg_hookOk (k : Nat) : cfg.HookOk k :=
  ⟨fun _ hl => (insertionHook_spec hl).1, insertionHook_single⟩

theorem cfg_anyChoice : AnyChoice cfg := by
  have h := stdCfg_anyChoice (mn := minElements) (mx := maxElements) (by decide) (by decide)
  exact ⟨h.mn, h.mx, h.choose, h.obs, h.ch⟩

/-! ### Insertion -/

theorem insertObject_spec {C : Cfg} (hC : C.Sound) (hk : C.HookOk k) {fuel : Nat} {s s' : IndexSet}
    (hs : StoredOk k s) {b : Box} (hb : Ranked k b) (h : insertObject C fuel s b = .ok s') :
    StoredOk k s' ∧ SameSet k (b :: s.ranges) s'.ranges ∧ s'.root.isSome := by
  unfold insertObject at h
  rw [except_bind_ok] at h
  obtain ⟨⟨root, next⟩, h1, h2⟩ := h
  simp only [Except.ok.injEq] at h2
  have hrank : (if s.init then s.rank else b.length) = k := by
    split
    · exact hs.rank (by assumption)
    · exact hb.2
  rw [hrank] at h2
  cases hr : s.root with
  | none =>
    rw [hr] at h1
    simp only [RTree.insert, Except.ok.injEq, Prod.mk.injEq] at h1
    obtain ⟨rfl, rfl⟩ := h1
    rw [hk.single] at h2
    subst h2
    refine ⟨?_, ?_, rfl⟩
    · have hok : TreeOk (fun _ => 0) noE k 0 (s.next + 1) (.mk s.next b [] [b]) := by
        refine ⟨⟨⟨rfl, hb, .inr rfl⟩, rfl, by simp [Node.obs_mk], ?_⟩, ?_, ?_⟩
        · simpa [Node.obs_mk] using hb
        · simp [Node.ids_eq, Node.id_mk, Node.ch_mk, Node.idsL]
        · simp [Node.ids_eq, Node.id_mk, Node.ch_mk, Node.idsL]
      exact storedOk_of_treeOk hok
    · rw [ranges_none hr, ranges_some (n := .mk s.next b [] [b]) rfl, Node.objects_leaf rfl]
      exact .refl (by simpa using hb)
  | some t =>
    rw [hr] at h1
    simp only [RTree.insert] at h1
    rw [except_bind_ok] at h1
    obtain ⟨⟨ctx, d⟩, hcl, h1⟩ := h1
    obtain ⟨lab, H, hok⟩ := hs.treeOk hr
    have z0 : Zip lab noE k H s.next [] t :=
      ⟨trivial, trivial, by simpa [ctxIds] using hok.nodup, by simpa [ctxIds] using hok.lt⟩
    obtain ⟨z, wd, hpl⟩ := chooseLeaf_spec z0 hok.wf hcl
    obtain ⟨z1, p1, hne, hss⟩ := addObject_spec hk z wd hb
    have ha := adjustTree_spec hC hk z1 p1 h1
    cases root with
    | none =>
      have h3 : (addObject C d b).objects = [] := (List.append_eq_nil_iff.1 ha.1).1
      rw [Node.objects_leaf (by exact wd.2.1)] at h3
      exact absurd h3 hne
    | some t' =>
      obtain ⟨lab', H', _, _, a3, a4⟩ := ha
      subst h2
      refine ⟨storedOk_of_treeOk a3, ?_, rfl⟩
      rw [ranges_some hr, ranges_some (n := t') rfl]
      rw [hpl, plug] at hss
      exact hss.trans a4

theorem insertObjects_spec {C : Cfg} (hC : C.Sound) (hk : C.HookOk k) {fuel : Nat} :
    ∀ {bs : List Box} {s s' : IndexSet}, StoredOk k s → (∀ b ∈ bs, Ranked k b) →
    insertObjects C fuel s bs = .ok s' →
    StoredOk k s' ∧ SameSet k (bs ++ s.ranges) s'.ranges
  | [], s, s', hs, _, h => by
    simp only [insertObjects, Except.ok.injEq] at h
    subst h
    exact ⟨hs, .refl (ranges_ranked hs.setOk)⟩
  | b :: bs, s, s', hs, hb, h => by
    rw [insertObjects, except_bind_ok] at h
    obtain ⟨s1, h1, h2⟩ := h
    have hb' : ∀ b ∈ bs, Ranked k b := fun c hc => hb c (by simp [hc])
    obtain ⟨i1, i2, _⟩ := insertObject_spec hC hk hs (hb b (by simp)) h1
    obtain ⟨j1, j2⟩ := insertObjects_spec hC hk i1 hb' h2
    refine ⟨j1, SameSet.trans ?_ j2⟩
    have hr : ∀ x ∈ b :: bs ++ s.ranges, Ranked k x := by
      intro x hx
      rw [List.mem_append] at hx
      rcases hx with hx | hx
      · exact hb x hx
      · exact ranges_ranked hs.setOk x hx
    refine (SameSet.perm ?_ hr).trans ((SameSet.refl hb').append i2)
    exact List.perm_middle.symm

theorem foldl_pieceStep (s : IndexSet) : ∀ (rs cur out : List Box),
    rs.foldl (pieceStep s) (cur, out) =
      ((carve s.overlapsBox rs cur out).2, (carve s.overlapsBox rs cur out).1)
  | [], _, _ => rfl
  | r :: rs, cur, out => by
    rw [List.foldl_cons, carve]
    exact foldl_pieceStep s rs _ _

/-- The pieces of a box that are not in the set. -/
theorem newPieces_spec {s : IndexSet} (hs : SetOk k s) {q : Box} (hq : Ranked k q) :
    (∀ d ∈ newPieces s q, Ranked k d) ∧ DisjL (newPieces s q) ∧
    (∀ p, InL p (newPieces s q) ↔ InB p q ∧ ¬ Has s p) := by
  unfold newPieces
  cases hr : s.root with
  | none =>
    rw [if_pos (by simp [isEmpty, hr])]
    refine ⟨by simpa using hq, by simp [DisjL], fun p => ?_⟩
    simp [Has, ranges_none hr, InL]
  | some t =>
    rw [if_neg (by simp [isEmpty, hr]), foldl_pieceStep]
    have hne : s.ranges ≠ [] := by
      rw [ne_eq, ranges_eq_nil_iff hs, hr]; simp
    obtain ⟨h1, h2, h3, _⟩ := carve_complete hs hne hq
    exact ⟨h1, h2, h3⟩

theorem pieces_disjoint {s : IndexSet} (hs : SetOk k s) {q : Box} (hq : Ranked k q)
    (hd : DisjL s.ranges) : DisjL (newPieces s q ++ s.ranges) := by
  obtain ⟨_, h2, h3⟩ := newPieces_spec hs hq
  rw [disjL_append]
  refine ⟨h2, hd, ?_⟩
  rw [disj_cross_iff]
  intro p hp hp'
  exact ((h3 p).1 hp).2 hp'

theorem insertBox_spec {C : Cfg} (hC : C.Sound) (hk : C.HookOk k) {fuel : Nat} {s s' : IndexSet}
    (hs : StoredOk k s) {b : Box} (hb : Ranked k b) (h : insertBox C fuel s b = .ok s') :
    StoredOk k s' ∧ (∀ p, Has s' p ↔ InB p b ∨ Has s p) ∧ (DisjL s.ranges → DisjL s'.ranges) := by
  obtain ⟨h1, _, h3⟩ := newPieces_spec hs.setOk hb
  obtain ⟨i1, i2⟩ := insertObjects_spec hC hk hs h1 h
  refine ⟨i1, fun p => ?_, fun hd => i2.disj (pieces_disjoint hs.setOk hb hd)⟩
  have := i2.mem p
  rw [inL_append, h3] at this
  unfold Has at this ⊢
  rw [this]
  by_cases hp : InL p s.ranges <;> simp [hp]

theorem insertBoxes_spec {C : Cfg} (hC : C.Sound) (hk : C.HookOk k) {fuel : Nat} :
    ∀ {bs : List Box} {s s' : IndexSet}, StoredOk k s → (∀ b ∈ bs, Ranked k b) →
    insertBoxes C fuel s bs = .ok s' →
    StoredOk k s' ∧ (∀ p, Has s' p ↔ InL p bs ∨ Has s p) ∧ (DisjL s.ranges → DisjL s'.ranges)
  | [], s, s', hs, _, h => by
    simp only [insertBoxes, Except.ok.injEq] at h
    subst h
    exact ⟨hs, fun p => by simp [inL_nil], id⟩
  | b :: bs, s, s', hs, hb, h => by
    rw [insertBoxes, except_bind_ok] at h
    obtain ⟨s1, h1, h2⟩ := h
    obtain ⟨i1, i2, i3⟩ := insertBox_spec hC hk hs (hb b (by simp)) h1
    obtain ⟨j1, j2, j3⟩ := insertBoxes_spec hC hk i1 (fun c hc => hb c (by simp [hc])) h2
    refine ⟨j1, fun p => ?_, fun hd => j3 (i3 hd)⟩
    rw [j2, i2, inL_cons]
    tauto

end IndexSet
end Marco
