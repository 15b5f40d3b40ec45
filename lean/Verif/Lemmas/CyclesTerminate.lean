import Verif.Lemmas.CyclesSearch
import Mathlib.Data.Finset.Card
import Mathlib.Data.Finset.Image
import Mathlib.Data.List.TakeWhile

/-! Helper lemmas: the search of the cycles terminates if no array equation depends on itself. -/

namespace Marco.Cycles
open Marco Marco.Spec

variable {eqs : Nat → Eqn} {rep : Rep} {scc : List Nat}

/-- The scalar equations of a component. -/
def scalars (eqs : Nat → Eqn) (scc : List Nat) : Finset ScalarEq :=
  scc.toFinset.biUnion fun e => (eqs e).it.image (Prod.mk e)

theorem mem_scalars {s : ScalarEq} : s ∈ scalars eqs scc ↔ s.1 ∈ scc ∧ s.2 ∈ (eqs s.1).it := by
  obtain ⟨e, p⟩ := s
  simp only [scalars, Finset.mem_biUnion, List.mem_toFinset, Finset.mem_image, Prod.mk.injEq]
  constructor
  · rintro ⟨e', h1, p', h2, rfl, rfl⟩
    exact ⟨h1, h2⟩
  · rintro ⟨h1, h2⟩
    exact ⟨e, h1, p, h2, rfl, rfl⟩

theorem card_scalars_le : (scalars eqs scc).card ≤ (scc.map fun e => (eqs e).it.card).sum := by
  induction scc with
  | nil => simp [scalars]
  | cons e l ih =>
    rw [List.map_cons, List.sum_cons]
    refine le_trans (Finset.card_le_card (t := (eqs e).it.image (Prod.mk e) ∪ scalars eqs l) ?_) ?_
    · rintro ⟨f, p⟩ hs
      rw [mem_scalars] at hs
      rw [Finset.mem_union, mem_scalars, Finset.mem_image]
      rcases List.mem_cons.1 hs.1 with h | h
      · left
        simp only at h
        subst h
        exact ⟨p, hs.2, rfl⟩
      · exact .inr ⟨h, hs.2⟩
    · refine le_trans (Finset.card_union_le _ _) ?_
      exact Nat.add_le_add Finset.card_image_le ih

/-- The scalar equations that are visited. -/
def visScalars (eqs : Nat → Eqn) (scc : List Nat) (st : St) : Finset ScalarEq :=
  (scalars eqs scc).filter fun s => s.2 ∈ st.vis s.1

/-- No scalar equation in common. -/
def Apart (a b : Dep) : Prop := a.eq = b.eq → Disjoint a.idx b.idx

theorem apart_sub {a a' b b' : Dep} (h : Apart a b) (ha : a'.Sub a) (hb : b'.Sub b) :
    Apart a' b' := by
  intro he
  exact (h (by rw [← ha.1, ← hb.1, he])).mono ha.2.2.2 hb.2.2.2

theorem sublist_sub {sub l : List Dep} (hs : sub.Sublist l) :
    ∀ {l' : List Dep}, List.Forall₂ Dep.Sub l' l →
      ∃ sub' : List Dep, sub'.Sublist l' ∧ List.Forall₂ Dep.Sub sub' sub := by
  induction hs with
  | slnil => intro l' h; cases h; exact ⟨[], .refl _, .nil⟩
  | cons a _ ih =>
    intro l' h
    cases h with
    | cons h1 h2 =>
      obtain ⟨s', h3, h4⟩ := ih h2
      exact ⟨s', h3.cons _, h4⟩
  | cons_cons a _ ih =>
    intro l' h
    cases h with
    | cons h1 h2 =>
      obtain ⟨s', h3, h4⟩ := ih h2
      exact ⟨_ :: s', h3.cons_cons _, .cons h1 h4⟩

theorem pairwise_sub {l l' : List Dep} (h : List.Forall₂ Dep.Sub l' l) (hp : l.Pairwise Apart) :
    l'.Pairwise Apart := by
  induction h with
  | nil => exact .nil
  | @cons a b l1 l2 hab hl ih =>
    rw [List.pairwise_cons] at hp ⊢
    refine ⟨?_, ih hp.2⟩
    refine forall_of_sub (P := Apart a) (fun d d' h hs => apart_sub h (.refl a) hs) hl ?_
    intro d hd
    exact apart_sub (hp.1 d hd) hab (.refl d)

theorem length_le_of_apart {l : List Dep} (hp : l.Pairwise Apart)
    (hn : ∀ d ∈ l, NodeOk eqs scc d) (hne : ∀ d ∈ l, d.idx.Nonempty) :
    l.length ≤ (scalars eqs scc).card := by
  classical
  let f : Dep → ScalarEq := fun d => (d.eq, if h : d.idx.Nonempty then h.choose else [])
  have hf : ∀ d ∈ l, (f d).2 ∈ d.idx := by
    intro d hd
    simp only [f, dif_pos (hne d hd)]
    exact (hne d hd).choose_spec
  have hnd : (l.map f).Nodup := by
    unfold List.Nodup
    rw [List.pairwise_map]
    refine List.Pairwise.imp_of_mem (fun {a b} ha hb hab heq => ?_) hp
    have h1 : a.eq = b.eq := congrArg Prod.fst heq
    have h2 : (f a).2 = (f b).2 := congrArg Prod.snd heq
    exact Finset.disjoint_left.1 (hab h1) (hf a ha) (h2 ▸ hf b hb)
  have := List.toFinset_card_of_nodup hnd
  rw [List.length_map] at this
  rw [← this]
  refine Finset.card_le_card fun s hs => ?_
  obtain ⟨d, hd, rfl⟩ := List.mem_map.1 (List.mem_toFinset.1 hs)
  exact mem_scalars.2 ⟨(hn d hd).1, (hn d hd).2 (hf d hd)⟩

theorem extract_none {path : List Dep} {x : Dep} {f : Nat} {w : Finset Point}
    (h : extract (path ++ [x]) f w = none) (hx : x.eq ≠ f) :
    ∀ d ∈ path ++ [x], d.eq = f → Disjoint d.idx w := by
  intro d hd he
  by_contra hnd
  have hmem : d.idx ∩ w ≠ ∅ := fun h => hnd (Finset.disjoint_iff_inter_eq_empty.2 h)
  have hne : (path ++ [x]).dropWhile (fun d => !(d.eq == f && decide (d.idx ∩ w ≠ ∅))) ≠ [] := by
    intro h0
    have := List.dropWhile_eq_nil_iff.1 h0 d hd
    simp [he, hmem] at this
  unfold extract at h
  split at h
  · rename_i hlen
    rw [List.length_append] at hlen
    simp only [List.length_singleton] at hlen
    have : path = [] := List.eq_nil_of_length_eq_zero (by omega)
    subst this
    simp only [List.nil_append, List.mem_singleton] at hd
    exact hx (hd ▸ he)
  · split at h
    · rename_i h0
      exact hne h0
    · split at h
      · rename_i hall
        have hlast : x ∈ (path ++ [x]).dropWhile
            (fun d => !(d.eq == f && decide (d.idx ∩ w ≠ ∅))) := by
          obtain ⟨t, ht⟩ := List.dropWhile_suffix (l := path ++ [x])
            (fun d => !(d.eq == f && decide (d.idx ∩ w ≠ ∅)))
          have h1 : (path ++ [x]).getLast? = some x := by simp
          rw [← ht, List.getLast?_append_of_ne_nil _ hne] at h1
          exact List.mem_of_getLast? h1
        have h3 := List.head_dropWhile_not (fun d : Dep => !(d.eq == f && decide (d.idx ∩ w ≠ ∅)))
          hne
        simp only [Bool.not_eq_false', Bool.and_eq_true, beq_iff_eq] at h3
        rw [List.all_eq_true] at hall
        have h4 := hall _ (List.head_mem hne)
        have h5 := hall _ hlast
        rw [beq_iff_eq] at h4 h5
        rw [← h5] at h4
        simp only [Option.some.injEq] at h4
        exact hx (h4.symm.trans h3.1)
      · cases h

theorem target_ne (hr : rep.Ok) (hw : ∀ e ∈ scc, SameWrites (eqs e))
    (hs : ∀ e ∈ scc, SelfFree eqs e) {e : Nat} {idx : Finset Point} {st : St} {j : Job}
    (he : e ∈ scc) (hi : idx ⊆ (eqs e).it)
    (hj : j ∈ jobs rep (writesMap eqs rep scc) (eqs e) idx) (hne : nextIdx eqs st j ≠ ∅) :
    e ≠ j.target.eq := by
  intro heq
  have hjob := jobOk hr hj
  obtain ⟨-, a0, ha0, hv0⟩ := mem_writesMap hjob.target
  obtain ⟨q, hq⟩ := Finset.nonempty_iff_ne_empty.2 hne
  have hq := (Finset.mem_sdiff.1 hq).1
  rw [mem_writingIndices, ← heq] at hq
  obtain ⟨hq, a, ha, v, h1, h2⟩ := hq
  rw [← heq] at ha0
  have hvar : j.ra.var = j.wa.var := hv0.symm.trans (hw e he a0 ha0 j.wa hjob.wa).1
  have hread := hjob.read
  rw [if_pos hvar] at hread
  have h3 := (Finset.mem_inter.1 h2).1
  rw [hread, Finset.mem_sdiff, mem_map] at h3
  obtain ⟨⟨p, hp, h4⟩, h5⟩ := h3
  have hdep : DependsOn eqs (e, p) (e, q) :=
    ⟨hi hp, hq, j.ra, ra_mem (hw e he) hi hjob, a, ha,
      hvar.trans (hw e he j.wa hjob.wa a ha).1, v, h4, h1⟩
  have := hs e he p q hdep
  subst this
  apply h5
  rw [hjob.written, mem_map]
  exact ⟨p, hp, (hw e he a ha j.wa hjob.wa).2 p hq ▸ h1⟩

theorem record_vis_mono {st : St} {o : Option (List Dep)} (e : Nat) :
    st.vis e ⊆ (record st o).vis e := by
  cases o with
  | none => exact subset_rfl
  | some c =>
    intro p hp
    rw [record_some]
    exact mem_markVisited.2 (.inl hp)

theorem dfs_vis_mono {m : Nat → List WInfo} {fuel : Nat} {st : St} {e : Nat} {idx : Finset Point}
    {path : List Dep} {st' : St} (h : dfs eqs rep m fuel st e idx path = some st') :
    ∀ f, st.vis f ⊆ st'.vis f := by
  refine dfs_inv (P := fun s => ∀ f, st.vis f ⊆ s.vis f) (Q := fun _ _ _ => True) ?_
    (fun _ => subset_rfl) trivial h
  intro s e idx path j hP _ _ _
  exact ⟨fun f => (hP f).trans (record_vis_mono f), trivial⟩

theorem visScalars_mono {st st' : St} (h : ∀ f, st.vis f ⊆ st'.vis f) :
    visScalars eqs scc st ⊆ visScalars eqs scc st' := by
  intro s hs
  rw [visScalars, Finset.mem_filter] at hs ⊢
  exact ⟨hs.1, h _ hs.2⟩

/-- How long the path may be: some of its nodes have no scalar equation in common, and for each of the
others a cycle has been found. -/
def Depth (eqs : Nat → Eqn) (scc : List Nat) (st : St) (e : Nat) (idx : Finset Point)
    (path : List Dep) : Prop :=
  ∀ x : Dep, x.eq = e → x.idx = idx → ∃ sub : List Dep, sub.Sublist (path ++ [x]) ∧
    sub.Pairwise Apart ∧ path.length + 1 ≤ sub.length + (visScalars eqs scc st).card

theorem Depth.mono {st st' : St} {e : Nat} {idx : Finset Point} {path : List Dep}
    (h : Depth eqs scc st e idx path) (hs : ∀ f, st.vis f ⊆ st'.vis f) :
    Depth eqs scc st' e idx path := by
  intro x h1 h2
  obtain ⟨sub, h3, h4, h5⟩ := h x h1 h2
  exact ⟨sub, h3, h4, h5.trans (Nat.add_le_add_left
    (Finset.card_le_card (visScalars_mono hs)) _)⟩

theorem extPath_length {e : Nat} {idx : Finset Point} {path : List Dep} {j : Job} :
    (extPath e idx path j).length = path.length + 1 := by
  have := extPath_sub (e := e) (idx := idx) (path := path) (j := j)
  rw [this.length_eq]
  simp

theorem depth_ext (hr : rep.Ok) (hw : ∀ e ∈ scc, SameWrites (eqs e))
    (hs : ∀ e ∈ scc, SelfFree eqs e) {e : Nat} {idx : Finset Point} {path : List Dep} {st : St}
    {j : Job} (h : PathOk eqs scc e idx path) (hd : Depth eqs scc st e idx path)
    (hj : j ∈ jobs rep (writesMap eqs rep scc) (eqs e) idx) (hne : nextIdx eqs st j ≠ ∅) :
    Depth eqs scc (record st (extract (extPath e idx path j) j.target.eq (nextIdx eqs st j)))
      j.target.eq (nextIdx eqs st j) (extPath e idx path j) := by
  have hext := pathOk_ext (st := st) hr hw h hj hne
  obtain ⟨sub, h1, h2, h3⟩ := hd ⟨e, idx, j.wa, j.written, j.ra, j.read ∩ j.target.box⟩ rfl rfl
  obtain ⟨sub', h4, h5⟩ := sublist_sub h1 extPath_sub
  have h6 := pairwise_sub h5 h2
  have h7 := h5.length_eq
  intro y hy1 hy2
  rw [extPath_length]
  cases hx : extract (extPath e idx path j) j.target.eq (nextIdx eqs st j) with
  | none =>
    refine ⟨sub' ++ [y], h4.append (.refl _), ?_, ?_⟩
    · rw [List.pairwise_append]
      refine ⟨h6, List.pairwise_singleton _ _, ?_⟩
      intro a ha b hb
      rw [List.mem_singleton] at hb
      subst hb
      intro hab
      rw [hy1] at hab
      rw [hy2]
      have ha := h4.subset ha
      rw [extPath_eq] at ha hx
      exact extract_none hx (target_ne hr hw hs h.mem h.sub hj hne) a ha hab
    · rw [List.length_append]
      simp only [record, List.length_singleton]
      omega
  | some c =>
    refine ⟨sub', h4.trans (List.sublist_append_left _ _), h6, ?_⟩
    have hlt : (visScalars eqs scc st).card < (visScalars eqs scc (record st (some c))).card := by
      refine Finset.card_lt_card (Finset.ssubset_iff_subset_ne.2
        ⟨visScalars_mono record_vis_mono, fun heq => ?_⟩)
      obtain ⟨hsuf, -, d, cs, hc, hde, p, hp, hpw⟩ := extract_some hx
      have hmem : ((j.target.eq, p) : ScalarEq) ∈ visScalars eqs scc (record st (some c)) := by
        rw [visScalars, Finset.mem_filter, mem_scalars, record_some]
        refine ⟨⟨hext.mem, hext.sub hpw⟩, mem_markVisited.2 (.inr ?_)⟩
        rw [hc, cov_cons]
        exact .inl ⟨hde, hp⟩
      rw [← heq, visScalars, Finset.mem_filter] at hmem
      exact (Finset.mem_sdiff.1 hpw).2 hmem.2
    omega

theorem depth_lt {st : St} {e : Nat} {idx : Finset Point} {path : List Dep}
    (h : PathOk eqs scc e idx path) (hd : Depth eqs scc st e idx path) :
    path.length + 1 ≤ 2 * (scalars eqs scc).card := by
  obtain ⟨sub, h1, h2, h3⟩ := hd ⟨e, idx, ⟨0, fun _ => ∅⟩, ∅, ⟨0, fun _ => ∅⟩, ∅⟩ rfl rfl
  have h4 : ∀ d ∈ sub, NodeOk eqs scc d ∧ d.idx.Nonempty := by
    intro d hd
    rcases List.mem_append.1 (h1.subset hd) with hd | hd
    · exact ⟨(h.nodes d hd).1, h.nonempty d hd⟩
    · rw [List.mem_singleton] at hd
      subst hd
      exact ⟨⟨h.mem, h.sub⟩, h.ne⟩
  have h5 := length_le_of_apart h2 (fun d hd => (h4 d hd).1) (fun d hd => (h4 d hd).2)
  have h6 : (visScalars eqs scc st).card ≤ (scalars eqs scc).card :=
    Finset.card_le_card (Finset.filter_subset _ _)
  omega

theorem foldlM_total {α β : Type*} {P : β → Prop} {f : β → α → Option β} :
    ∀ {l : List α}, (∀ a ∈ l, ∀ b, P b → ∃ b', f b a = some b' ∧ P b') →
      ∀ {b}, P b → ∃ b', l.foldlM f b = some b' ∧ P b'
  | [], _, b, hb => ⟨b, rfl, hb⟩
  | a :: l, hf, b, hb => by
    obtain ⟨b1, h1, h2⟩ := hf a List.mem_cons_self b hb
    obtain ⟨b', h3, h4⟩ := foldlM_total (fun a ha => hf a (List.mem_cons_of_mem _ ha)) h2
    exact ⟨b', by simp [List.foldlM_cons, h1, h3], h4⟩

theorem dfs_terminates (hr : rep.Ok) (hw : ∀ e ∈ scc, SameWrites (eqs e))
    (hs : ∀ e ∈ scc, SelfFree eqs e) : ∀ {fuel : Nat} {st : St} {e : Nat} {idx : Finset Point}
    {path : List Dep}, PathOk eqs scc e idx path → Depth eqs scc st e idx path →
      2 * (scalars eqs scc).card ≤ path.length + fuel →
      ∃ st', dfs eqs rep (writesMap eqs rep scc) fuel st e idx path = some st'
  | 0, st, e, idx, path, h, hd, hf => by
    have := depth_lt h hd
    omega
  | fuel + 1, st, e, idx, path, h, hd, hf => by
    rw [dfs_succ]
    have key : ∀ j ∈ jobs rep (writesMap eqs rep scc) (eqs e) idx, ∀ s : St,
        (∀ f, st.vis f ⊆ s.vis f) →
        ∃ s', step eqs rep (writesMap eqs rep scc) fuel e idx path s j = some s' ∧
          ∀ f, st.vis f ⊆ s'.vis f := by
      intro j hj s hsub
      unfold step
      split
      · exact ⟨s, rfl, hsub⟩
      · rename_i hne
        obtain ⟨s', h2⟩ := dfs_terminates hr hw hs (fuel := fuel)
          (pathOk_ext (st := s) hr hw h hj hne)
          (depth_ext hr hw hs h (hd.mono hsub) hj hne) (by rw [extPath_length]; omega)
        exact ⟨s', h2, fun f => (hsub f).trans ((record_vis_mono f).trans (dfs_vis_mono h2 f))⟩
    obtain ⟨st', h1, -⟩ := foldlM_total (P := fun s : St => ∀ f, st.vis f ⊆ s.vis f) key
      (b := st) (fun _ => subset_rfl)
    exact ⟨st', h1⟩

theorem pathOk_nil {e : Nat} {idx : Finset Point} (he : e ∈ scc) (hi : idx ⊆ (eqs e).it)
    (hne : idx ≠ ∅) : PathOk eqs scc e idx [] :=
  ⟨he, hi, Finset.nonempty_iff_ne_empty.2 hne, by simp, by simp, by simp, by simp⟩

theorem search_terminates (hr : rep.Ok) (hw : ∀ e ∈ scc, SameWrites (eqs e))
    (hs : ∀ e ∈ scc, SelfFree eqs e) {fuel : Nat} (hf : 2 * (scalars eqs scc).card ≤ fuel) :
    ∀ {l : List Nat} {st : St}, (∀ e ∈ l, e ∈ scc) →
      ∃ st', search eqs rep (writesMap eqs rep scc) fuel st l = some st'
  | [], st, _ => ⟨st, rfl⟩
  | e :: l, st, hl => by
    rw [search]
    split
    · exact search_terminates hr hw hs hf fun e he => hl e (List.mem_cons_of_mem _ he)
    · rename_i hne
      have hp : PathOk eqs scc e ((eqs e).it \ st.vis e) [] :=
        pathOk_nil (hl e List.mem_cons_self) Finset.sdiff_subset hne
      have hd : Depth eqs scc st e ((eqs e).it \ st.vis e) [] := by
        intro x _ _
        exact ⟨[x], .refl _, List.pairwise_singleton _ _, by simp⟩
      obtain ⟨st1, h1⟩ := dfs_terminates hr hw hs (fuel := fuel) hp hd (by simpa using hf)
      rw [h1]
      exact search_terminates hr hw hs hf fun e he => hl e (List.mem_cons_of_mem _ he)

end Marco.Cycles
