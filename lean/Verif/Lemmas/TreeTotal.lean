import Verif.Lemmas.TreeInv

/-! Insertions that always succeed. -/

namespace Marco
namespace RTree
open Spec

theorem chooseLeaf_leaf {C : Cfg} {b : Box} : ∀ {fuel : Nat} {ctx ctx' : Ctx} {n d : Node},
    chooseLeaf C b fuel ctx n = .ok (ctx', d) → d.ch = []
  | fuel, ctx, ctx', n, d, h => by
    by_cases hl : n.isLeaf = true
    · have : chooseLeaf C b fuel ctx n = .ok (ctx, n) := by cases fuel <;> simp [chooseLeaf, hl]
      rw [this] at h
      simp only [Except.ok.injEq, Prod.mk.injEq] at h
      rw [← h.2]
      simpa [Node.isLeaf] using hl
    · cases fuel with
      | zero => simp [chooseLeaf, hl] at h
      | succ fuel =>
        rw [chooseLeaf, if_neg hl, except_bind_ok] at h
        obtain ⟨⟨l, c, r⟩, _, h2⟩ := h
        exact chooseLeaf_leaf h2

/-- Insertion in a tree when the hook leaves enough objects in the leaf that gets the new one. -/
theorem insert_total (C : Cfg) (hC : AnyChoice C) {k : Nat} (hk : C.HookOk k)
    (hlen : ∀ l, (∀ b ∈ l, Ranked k b) → (C.hook l).length ≤ l.length) {next : Nat} (fuel : Nat)
    {t : Node} (ht : TreeInv C.mn C.mx k t) (hids : ∀ i ∈ t.ids, i < next) {b : Box}
    (hb : Ranked k b)
    (hfull : ∀ ctx d, chooseLeaf C b t.weight [] t = .ok (ctx, d) → ctx ≠ [] →
      C.mn ≤ (C.hook (d.obs ++ [b])).length) :
    ∃ (t' : Node) (next' : Nat) (ctx : Ctx) (d : Node), RTree.insert C fuel (some t) next b = .ok (some t', next') ∧ TreeInv C.mn C.mx k t' ∧
      (∀ i ∈ t'.ids, i < next') ∧ d.ch = [] ∧ (∀ o ∈ d.obs, Ranked k o) ∧
      t'.objects.Perm (C.hook (d.obs ++ [b]) ++ ctxObjs ctx) ∧ t.objects.Perm (d.obs ++ ctxObjs ctx) ∧
      (d.obs.length + 1 ≤ C.mx → t.ch = [] → t'.ch = []) := by
  have hmn := hC.mn
  have hmx := hC.mx
  obtain ⟨⟨lab, H, hok⟩, hfan⟩ := treeOk_of_inv hmn ht hids
  obtain ⟨⟨ctx, d⟩, hcl⟩ := chooseLeaf_ok hC (b := b) (ctx := []) (n := t) (le_refl t.weight)
  have hfull := hfull ctx d hcl
  have z0 : Zip lab noE k H next [] t :=
    ⟨trivial, trivial, by simpa [ctxIds] using hok.nodup, by simpa [ctxIds] using hok.lt⟩
  obtain ⟨z, wd, hpl⟩ := chooseLeaf_spec z0 hok.wf hcl
  obtain ⟨hcf, hdf⟩ := chooseLeaf_fan (mn := C.mn) (mx := C.mx) (ctx := []) trivial hfan hcl
  obtain ⟨z1, p1, hne, _⟩ := addObject_spec hk z wd hb
  have hch : d.ch = [] := wd.2.1
  have hrk : ∀ o ∈ d.obs ++ [b], Ranked k o := by
    intro o ho
    simp only [List.mem_append, List.mem_singleton] at ho
    rcases ho with ho | rfl
    · exact wd.2.2.2 o ho
    · exact hb
  have hfo : (addObject C d b).fanOut = (C.hook (d.obs ++ [b])).length := by
    rw [fanOut_leaf (by exact hch)]
    simp [addObject, Node.obs_mk]
  have hle : (addObject C d b).fanOut ≤ d.fanOut + 1 := by
    rw [hfo, fanOut_leaf hch]
    have := hlen _ hrk
    simpa using this
  have hpos : (addObject C d b).fanOut ≠ 0 := by
    rw [hfo]
    intro h0
    exact hne (List.length_eq_zero_iff.1 h0)
  have h1 : (addObject C d b).objects = C.hook (d.obs ++ [b]) := by
    rw [Node.objects_leaf (by exact hch)]
    simp [addObject, Node.obs_mk]
  have hobj : t.objects.Perm (d.obs ++ ctxObjs ctx) := by
    have h2 := plug_objects ctx d
    rw [hpl, plug, Node.objects_leaf hch] at h2
    exact h2
  have hins : insert C fuel (some t) next b = adjustTree C fuel next ctx (addObject C d b) := by
    unfold RTree.insert
    simp only
    rw [except_bind_of_ok hcl]
  have hroot : t.ch = [] → ctx = [] := by
    intro hc
    have hl : t.isLeaf = true := by simp [Node.isLeaf, hc]
    have : chooseLeaf C b t.weight [] t = .ok ([], t) := by
      cases t.weight <;> simp [chooseLeaf, hl]
    rw [this] at hcl
    simp only [Except.ok.injEq, Prod.mk.injEq] at hcl
    exact hcl.1.symm
  -- the two possible ends
  have hsplit : (addObject C d b).fanOut > C.mx → ∃ t' next',
      splitUp C next ctx (addObject C d b) = .ok (t', next') ∧ TreeInv C.mn C.mx k t' ∧
      t'.objects.Perm ((addObject C d b).objects ++ ctxObjs ctx) ∧ ∀ i ∈ t'.ids, i < next' := by
    intro hf
    obtain ⟨⟨t', next'⟩, hs⟩ := splitUp_ok hC (ctx := ctx) (next := next) (.inr hne)
    obtain ⟨lab', H', _, _, h3, h4, _⟩ := z1.split hC.sound p1 hf hs
    have hfan' := splitUp_fan hC hcf (by have := hdf.1; omega)
      (fun hh => by rw [hfo]; exact hfull hh)
      (by rw [show (addObject C d b).ch = [] from hch]; simp) hs
    exact ⟨t', next', hs, inv_of_treeOk h3 hfan', h4, h3.lt⟩
  have hupd : (addObject C d b).fanOut ≤ C.mx → ∃ t',
      updateBoundaries ctx (addObject C d b) = .ok t' ∧ TreeInv C.mn C.mx k t' ∧
      t'.objects.Perm ((addObject C d b).objects ++ ctxObjs ctx) ∧ (∀ i ∈ t'.ids, i < next) ∧
      (ctx = [] → t'.ch = []) := by
    intro hf
    obtain ⟨t', hu⟩ := updateBoundaries_ok (ctx := ctx) (n := addObject C d b) (.inr hne)
    obtain ⟨lab', H', _, _, h3, h4, _⟩ := z1.update p1 hu
    have hfan' := updateBoundaries_fan hcf (n := addObject C d b)
      ⟨hf, fun hh => by rw [hfo]; exact hfull hh,
        by rw [show (addObject C d b).ch = [] from hch]; simp⟩ hu
    refine ⟨t', hu, inv_of_treeOk h3 hfan', h4, h3.lt, ?_⟩
    rintro rfl
    unfold updateBoundaries at hu
    split at hu
    · simp at hu
    · split at hu
      · simp only [plug, Except.ok.injEq] at hu
        rw [← hu]; exact hch
      · simp only [Except.ok.injEq] at hu
        rw [← hu]; exact hch
  have hend : ∃ t' next', (if (addObject C d b).fanOut > C.mx then (do
        let (t, next) ← splitUp C next ctx (addObject C d b)
        .ok (some t, next) : Res (Option Node × Nat))
      else do
        let t ← updateBoundaries ctx (addObject C d b)
        .ok (some t, next)) = .ok (some t', next') ∧ TreeInv C.mn C.mx k t' ∧
      t'.objects.Perm ((addObject C d b).objects ++ ctxObjs ctx) ∧ (∀ i ∈ t'.ids, i < next') ∧
      (d.obs.length + 1 ≤ C.mx → t.ch = [] → t'.ch = []) := by
    by_cases hf : (addObject C d b).fanOut > C.mx
    · obtain ⟨t', next', h1, h2, h3, h4⟩ := hsplit hf
      rw [if_pos hf, except_bind_of_ok h1]
      refine ⟨t', next', rfl, h2, h3, h4, fun hc => ?_⟩
      rw [fanOut_leaf hch] at hle
      omega
    · obtain ⟨t', h1, h2, h3, h4, h5⟩ := hupd (by omega)
      rw [if_neg hf, except_bind_of_ok h1]
      exact ⟨t', next, rfl, h2, h3, h4, fun _ hc => h5 (hroot hc)⟩
  obtain ⟨t', next', e1, e2, e3, e4, e5⟩ := hend
  rw [h1] at e3
  refine ⟨t', next', ctx, d, ?_, e2, e4, hch, fun o ho => hrk o (by simp [ho]), e3, hobj, e5⟩
  rw [hins]
  unfold adjustTree
  split
  · exact e1
  · rename_i hctx
    have hctx : ctx ≠ [] := by simpa using hctx
    rw [if_neg (by rw [hfo]; have := hfull hctx; omega)]
    exact e1

end RTree
end Marco
