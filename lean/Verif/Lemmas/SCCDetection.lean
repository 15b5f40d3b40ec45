import Verif.Lemmas.MatchedAccesses
import Verif.Lemmas.CyclesComponents
import Verif.Spec.SCCDetection

/-!
# Helper lemmas for C110
-/

namespace Marco.Cycles
open Marco Spec
variable {eqs : Nat → Eqn} {rep : Rep} {scc : List Nat}

/-- A linked path without empty nodes. -/
def Full (c : List Dep) : Prop := List.IsChain Link c ∧ ∀ d ∈ c, d.idx.Nonempty

theorem chain_nonempty' {x : Dep} {l : List Dep} (h : List.IsChain Link (x :: l)) (hx : x.idx.Nonempty) :
    ∀ d ∈ l, d.idx.Nonempty := by
  induction l generalizing x with
  | nil => simp
  | cons c l ih =>
    rw [List.isChain_cons_cons] at h
    obtain ⟨j, hj⟩ := hx
    obtain ⟨-, v, -, hv⟩ := h.1.2 j hj
    obtain ⟨i, hi, -⟩ := mem_map.1 hv
    intro d hd
    rcases List.mem_cons.1 hd with rfl | hd
    · exact ⟨i, hi⟩
    · exact ih h.2 ⟨i, hi⟩ d hd

theorem setAt_full {l cs : List Dep} {d : Dep} {s : Finset Point} (h : Full (l ++ d :: cs)) (hs : s ⊆ d.idx)
    (hne : s.Nonempty) : Full (setAt (l ++ d :: cs) l.length s) := by
  have hc := setAt_chain h.1 hs
  refine ⟨hc, ?_⟩
  rw [setAt_eq] at hc ⊢
  rw [chain_around, List.reverse_reverse] at hc
  have hx : (setIdx d s).idx.Nonempty := hne
  intro x hxm
  rcases List.mem_append.1 hxm with hm | hm
  · exact chain_nonempty hc.1 hx x (List.mem_reverse.1 hm)
  · rcases List.mem_cons.1 hm with rfl | hm
    · exact hx
    · exact chain_nonempty' hc.2 hx x hm

theorem splitCycleGo_full {e : Nat} {idx : Finset Point} :
    ∀ {n : Nat} {c : List Dep}, Full c → ∀ c' ∈ splitCycleGo e idx n c, Full c'
  | 0, c, h, c', hc' => by
    rw [splitCycleGo, List.mem_singleton] at hc'
    exact hc' ▸ h
  | n + 1, c, h, c', hc' => by
    rw [splitCycleGo] at hc'
    split at hc'
    · rw [List.mem_singleton] at hc'
      exact hc' ▸ h
    · rename_i k hk
      obtain ⟨hlt, hcut, -⟩ := List.findIdx?_eq_some_iff_getElem.1 hk
      rw [List.getElem?_eq_getElem hlt] at hc'
      simp only at hc'
      have hc := list_split (List.getElem?_eq_getElem hlt)
      have hlen : (c.take k).length = k := by
        rw [List.length_take]
        omega
      have key : ∀ s, s ⊆ c[k].idx → s.Nonempty → Full (setAt c k s) := by
        intro s hs hne
        have := setAt_full (l := c.take k) (d := c[k]) (cs := c.drop (k + 1)) (s := s) (hc ▸ h) hs hne
        rwa [← hc, hlen] at this
      simp only [Dep.cut, Bool.and_eq_true, beq_iff_eq, decide_eq_true_eq, Bool.not_eq_true',
        decide_eq_false_iff_not] at hcut
      rcases List.mem_append.1 hc' with hc' | hc'
      · exact splitCycleGo_full (key _ Finset.inter_subset_left (Finset.nonempty_iff_ne_empty.2 hcut.1.2)) c' hc'
      · refine splitCycleGo_full (key _ Finset.sdiff_subset ?_) c' hc'
        obtain ⟨p, hp, hnp⟩ := Finset.not_subset.1 hcut.2
        exact ⟨p, Finset.mem_sdiff.2 ⟨hp, fun h => hnp (Finset.mem_inter.1 h).2⟩⟩

/-- The components have no views without indices. -/
theorem process_nonempty (hr : rep.Ok) (hw : ∀ e ∈ scc, SameWrites (eqs e)) {fuel : Nat} {out : List (List View)}
    (h : ProcessScc eqs rep fuel scc out) : ∀ v ∈ out.flatten, v.2.Nonempty := by
  obtain ⟨st, comps, h1, h2, rfl⟩ := h
  intro v hv
  rw [List.flatten_append, List.mem_append] at hv
  rcases hv with hv | hv
  · have := h2.perm.mem_iff.1 hv
    simp only [vertices, List.mem_dedup, List.mem_map, List.mem_flatten] at this
    obtain ⟨d, ⟨c, hc, hd⟩, rfl⟩ := this
    have hall : ∀ c ∈ partition st.cycles, Full c := partition_inv (fun d c h => splitCycleGo_full h)
      fun c hc => ⟨(search_cycleOk hr hw h1 c hc).chain, (search_cycleOk hr hw h1 c hc).nonempty⟩
    exact (hall c hc).2 d hd
  · rw [remaining_flatten] at hv
    obtain ⟨e, he, rfl⟩ := List.mem_map.1 hv
    simpa [Finset.nonempty_iff_ne_empty] using (List.mem_filter.1 he).2

theorem getSCCs_nonempty (hr : rep.Ok) {sccs : List (List Nat)} (hw : ∀ e ∈ sccs.flatten, SameWrites (eqs e)) {fuel : Nat}
    {out : List (List View)} (h : GetSCCs eqs rep fuel sccs out) : ∀ v ∈ out.flatten, v.2.Nonempty := by
  obtain ⟨outs, houts, hperm⟩ := h
  intro v hv
  have hv := hperm.flatten.mem_iff.1 hv
  clear hperm
  induction houts with
  | nil => simp at hv
  | @cons scc o sccs outs h1 _ ih =>
    rw [List.flatten_cons, List.flatten_append, List.mem_append] at hv
    rcases hv with hv | hv
    · exact process_nonempty hr (fun e he => hw e (by simp [he])) h1 v hv
    · exact ih (fun e he => hw e (by rw [List.flatten_cons, List.mem_append]; exact .inr he)) hv

/-- The scalar equations of the components. -/
def scalarsOf (l : List View) : Multiset ScalarEq := (l.map fun v => v.2.val.map fun p => (v.1, p)).sum

theorem count_scalarsOf (l : List View) (s : ScalarEq) : (scalarsOf l).count s = l.countP (hasScalar s) := by
  induction l with
  | nil => rfl
  | cons v l ih =>
    rw [scalarsOf, List.map_cons, List.sum_cons, Multiset.count_add, List.countP_cons]
    have : (v.2.val.map fun p => (v.1, p)).count s = if hasScalar s v = true then 1 else 0 := by
      by_cases h1 : v.1 = s.1
      · have : s = (v.1, s.2) := by rw [h1]
        rw [this, Multiset.count_map_eq_count' _ _ (fun a b h => (Prod.mk.inj h).2)]
        simp only [hasScalar, beq_self_eq_true, Bool.true_and, decide_eq_true_eq]
        split_ifs with h
        · exact Multiset.count_eq_one_of_mem v.2.nodup h
        · exact Multiset.count_eq_zero_of_notMem h
      · rw [if_neg (by simp [hasScalar, h1])]
        refine Multiset.count_eq_zero_of_notMem fun h => h1 ?_
        obtain ⟨p, -, rfl⟩ := Multiset.mem_map.1 h
        rfl
    rw [this]
    have ih : Multiset.count s (l.map fun v => v.2.val.map fun p => (v.1, p)).sum = l.countP (hasScalar s) := ih
    rw [ih, Nat.add_comm]

end Marco.Cycles

namespace Marco.MatchPass
open Marco Matching Mat Spec Marco.Spec.MatchPass Cycles
variable {P : Type}

/-- The scalar equation of an index of the graph. -/
def toPoint (e : Inst P) (p : Point) : Point := if e.inductions = 0 then [] else p

theorem points_eq {e : Inst P} (he : e.inductions = 0 ↔ e.indices = ∅) :
    (points e).val = (mask e.indices).val.map (toPoint e) := by
  by_cases h : e.inductions = 0
  · rw [points, if_pos h, he.1 h, mask_empty]
    simp [toPoint, h]
  · have : toPoint e = id := by funext p; simp [toPoint, h]
    rw [points, if_neg h, mask_ne (fun h' => h (he.2 h')), this, Multiset.map_id]

/-- Of the clone for some indices: the equations and the variables. -/
theorem sccInstance_spec {accs : List Acc} {e : Inst P} (he : e.inductions = 0 ↔ e.indices = ∅)
    (hrk : ∀ p ∈ e.indices, p.length = e.inductions) {t : Finset Point} (ht : t ⊆ mask e.indices) (hne : t.Nonempty) :
    scalarEqs [sccInstance accs e t] = t.val.map (fun p => (e.template, e.props, toPoint e p)) ∧
    ∀ n s, e.matched = some (n, s) → writeAccesses accs e ≠ [] → (∀ a ∈ writeAccesses accs e, a.scalar ↔ s = ∅) →
      ∀ g : Point → String × Point, (∀ p ∈ points e, ∀ p' ∈ points e, g p = g p' → p = p') →
      (∀ a ∈ writeAccesses accs e, ∀ p ∈ points e, uses e a p = g p) → matchedVars [e] = (points e).val.map g →
      matchedVars [sccInstance accs e t] = t.val.map (fun p => g (toPoint e p)) := by
  by_cases h0 : e.inductions = 0
  · have hm : mask e.indices = {[0]} := by rw [he.1 h0, mask_empty]
    have htt : t = {[0]} := eq_single (by rw [← hm]; exact ht) (Finset.nonempty_iff_ne_empty.1 hne)
    subst htt
    rw [sccInstance, if_pos h0]
    refine ⟨by simp [scalarEqs, h0, toPoint], ?_⟩
    intro n s _ _ _ g _ _ hv
    rw [hv]
    simp [points, h0, toPoint]
  · have hn : e.indices ≠ ∅ := fun h => h0 (he.2 h)
    rw [mask_ne hn] at ht
    have htk : t.image (List.take e.inductions) = t := by
      ext p
      simp only [Finset.mem_image]
      constructor
      · rintro ⟨q, hq, rfl⟩
        rwa [List.take_of_length_le (hrk q (ht hq)).le]
      · intro hp
        exact ⟨p, hp, List.take_of_length_le (hrk p (ht hp)).le⟩
    have hto : ∀ p, toPoint e p = p := fun p => by simp [toPoint, h0]
    rw [sccInstance, if_neg h0, htk]
    simp only [hto]
    have hpts : points e = e.indices := by rw [points, if_neg h0]
    constructor
    · rw [setIndices]
      split_ifs with h
      · subst h
        simp [scalarEqs, h0]
      · simp [scalarEqs, h0]
    · intro n s hm hw hsc g hinj hu hv
      rw [hpts] at hinj hu hv
      rw [setIndices]
      split_ifs with h
      · rw [h, hv]
      · obtain ⟨w, ws, hws⟩ := List.exists_cons_of_ne_nil hw
        have hwm : w ∈ writeAccesses accs e := by rw [hws]; simp
        have hs : s ≠ ∅ := by
          rintro rfl
          refine h ?_
          have : e.indices.card = 1 := by
            have := congrArg Multiset.card hv
            simp only [MatchPass.matchedVars, List.map_cons, hm, if_true, List.map_nil, List.sum_cons, List.sum_nil, add_zero,
              Multiset.card_singleton, Multiset.card_map, Finset.card_val] at this
            exact this.symm
          obtain ⟨x, hx⟩ := Finset.card_eq_one.1 this
          rw [hx] at ht ⊢
          exact eq_single ht (Finset.nonempty_iff_ne_empty.1 hne)
        have hvar : ∀ a ∈ writeAccesses accs e, a.var = n ∧ a.scalar = false := by
          intro a ha
          have h1 := ha
          simp only [writeAccesses, hm, List.mem_filter, Bool.and_eq_true, beq_iff_eq] at h1
          refine ⟨h1.2.1, ?_⟩
          cases hc : a.scalar
          · rfl
          · exact absurd ((hsc a ha).1 hc) hs
        have huse : ∀ a ∈ writeAccesses accs e, ∀ p ∈ e.indices, g p = (n, a.fn p) := by
          intro a ha p hp
          rw [← hu a ha p hp, uses, (hvar a ha).1, (hvar a ha).2]
          simp [h0]
        have himg : (writeAccesses accs e).foldl (fun s a => s ∪ image e.inductions a t) ∅ = t.image w.fn := by
          ext x
          rw [mem_fold]
          simp only [Finset.notMem_empty, false_or, image, h0, if_false]
          constructor
          · rintro ⟨a, ha, hx⟩
            rw [(hvar a ha).2] at hx
            simp only [Bool.false_eq_true, if_false, Finset.mem_image] at hx ⊢
            obtain ⟨p, hp, rfl⟩ := hx
            refine ⟨p, hp, ?_⟩
            have := (huse a ha p (ht hp)).symm.trans (huse w hwm p (ht hp))
            exact (Prod.mk.inj this).2.symm
          · intro hx
            exact ⟨w, hwm, by rw [(hvar w hwm).2]; simpa using hx⟩
        have hne' : t.image w.fn ≠ ∅ := Finset.nonempty_iff_ne_empty.1 (hne.image _)
        simp only [MatchPass.matchedVars, List.map_cons, List.map_nil, List.sum_cons, List.sum_nil, add_zero, hm, Option.map_some,
          himg, hne', if_false]
        rw [Finset.image_val_of_injOn, Multiset.map_map]
        · refine Multiset.map_congr rfl fun p hp => ?_
          rw [huse w hwm p (ht hp)]
          rfl
        · intro p hp p' hp' hpp
          refine hinj p (ht hp) p' (ht hp') ?_
          rw [huse w hwm p (ht hp), huse w hwm p' (ht hp'), hpp]

theorem sum_single {α M : Type} [AddCommMonoid M] (f : α → M) (l : List α) :
    (l.map f).sum = (l.map fun x => ([x].map f).sum).sum := by simp

theorem scalarEqs_flat (l : List (Inst P)) : scalarEqs l = (l.map fun e => scalarEqs [e]).sum := by
  simp only [scalarEqs, List.map_cons, List.map_nil, List.sum_cons, List.sum_nil, add_zero]

theorem matchedVars_flat (l : List (Inst P)) : matchedVars l = (l.map fun e => matchedVars [e]).sum := by
  simp only [MatchPass.matchedVars, List.map_cons, List.map_nil, List.sum_cons, List.sum_nil, add_zero]

theorem compute_flatten (accs : Nat → List Acc) (es : List (Inst P)) (out : List (List View)) :
    (computeSCCs accs es out).flatten =
      out.flatten.filterMap fun v => (es[v.1]?).map fun e => sccInstance (accs e.template) e v.2 := by
  unfold computeSCCs
  induction out with
  | nil => rfl
  | cons c out ih => rw [List.map_cons, List.flatten_cons, ih, List.flatten_cons, List.filterMap_append]

/-- A sum over the components. -/
theorem sum_compute {β : Type} {accs : Nat → List Acc} {es : List (Inst P)} {out : List (List View)}
    (f : Inst P → Multiset β) (F : ScalarEq → β)
    (h : ∀ v ∈ out.flatten, ∃ e, es[v.1]? = some e ∧
      f (sccInstance (accs e.template) e v.2) = v.2.val.map fun p => F (v.1, p)) :
    ((computeSCCs accs es out).flatten.map f).sum = (scalarsOf out.flatten).map F := by
  rw [compute_flatten]
  generalize out.flatten = l at h
  induction l with
  | nil => rfl
  | cons v l ih =>
    obtain ⟨e, he, hf⟩ := h v (by simp)
    have ih := ih fun w hw => h w (by simp [hw])
    rw [List.filterMap_cons, he]
    simp only [Option.map_some, List.map_cons, List.sum_cons]
    rw [ih, hf, scalarsOf, scalarsOf, List.map_cons, List.sum_cons, Multiset.map_add, Multiset.map_map]
    rfl

/-- A sum over the equations. -/
theorem sum_equations {β : Type} (es : List (Inst P)) (f : Inst P → Multiset β) (F : ScalarEq → β)
    (h : ∀ i e, es[i]? = some e → f e = (mask e.indices).val.map fun p => F (i, p)) :
    (es.map f).sum = (scalarsOf (es.zipIdx.map fun x => (x.2, mask x.1.indices))).map F := by
  have h : ∀ x ∈ es.zipIdx, f x.1 = (mask x.1.indices).val.map fun p => F (x.2, p) := fun x hx => h _ _ (mem_zipIdx hx)
  rw [← map_zipIdx]
  generalize es.zipIdx = l at h
  induction l with
  | nil => rfl
  | cons x l ih =>
    have ih := ih fun y hy => h y (by simp [hy])
    rw [List.map_cons, List.sum_cons, ih, h x (by simp), scalarsOf, scalarsOf, List.map_cons, List.map_cons, List.sum_cons,
      Multiset.map_add, Multiset.map_map]
    rfl

theorem toEqns_it {vid : String → Nat} {accs : Nat → List Acc} {es : List (Inst P)} {i : Nat} {e : Inst P}
    (h : es[i]? = some e) : (toEqns vid accs es i).it = mask e.indices := by
  simp [toEqns, h, toEqn]

/-- The scalar equations of the graph, in the components and in the equations. -/
theorem scalars_eq {vid : String → Nat} {accs : Nat → List Acc} {es : List (Inst P)} {all : List Nat} {out : List (List View)}
    (h : PartitionsScalars (toEqns vid accs es) all out) (hall : ∀ i < es.length, i ∈ all) :
    scalarsOf out.flatten = scalarsOf (es.zipIdx.map fun x => (x.2, mask x.1.indices)) := by
  ext s
  rw [count_scalarsOf, ← occurrences_eq, h s, count_scalarsOf]
  have hn : (es.zipIdx.map fun x => ((x.2, mask x.1.indices) : View)).Nodup := by
    have h1 : (es.zipIdx.map fun x => x.2).Nodup := by
      rw [List.zipIdx_map_snd]
      exact List.nodup_range'
    refine List.Nodup.of_map Prod.fst ?_
    rw [List.map_map]
    exact h1
  have hu := countP_unique (P := hasScalar s) hn (by
    intro a ha b hb h1 h2
    obtain ⟨x, hx, rfl⟩ := List.mem_map.1 ha
    obtain ⟨y, hy, rfl⟩ := List.mem_map.1 hb
    have e1 : x.2 = y.2 := (hasScalar_iff.1 h1).1.trans (hasScalar_iff.1 h2).1.symm
    have e2 := (mem_zipIdx hx).symm.trans (e1 ▸ mem_zipIdx hy)
    rw [e1, Option.some.inj e2])
  by_cases hx : s.1 ∈ all ∧ s.2 ∈ (toEqns vid accs es s.1).it
  · rw [if_pos hx, hu.1]
    cases he : es[s.1]? with
    | none => simp [toEqns, he] at hx
    | some e =>
      rw [toEqns_it he] at hx
      refine ⟨(s.1, mask e.indices), List.mem_map.2 ⟨(e, s.1), ?_, rfl⟩, hasScalar_iff.2 ⟨rfl, hx.2⟩⟩
      exact List.mem_zipIdx_iff_getElem?.2 he
  · rw [if_neg hx, hu.2]
    rintro ⟨v, hv, h1⟩
    obtain ⟨x, hxm, rfl⟩ := List.mem_map.1 hv
    obtain ⟨h2, h3⟩ := hasScalar_iff.1 h1
    have he := mem_zipIdx hxm
    dsimp only at h2 h3
    rw [h2] at he
    exact hx ⟨hall _ (lt_of_get he), by rw [toEqns_it he]; exact h3⟩

end Marco.MatchPass
