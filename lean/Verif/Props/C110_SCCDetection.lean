import Verif.Lemmas.SCCDetection
import Verif.Props.C37_Components
import Verif.Props.C108_MatchingPass
import Verif.Props.C109_MatchedAccesses

/-!
# C110: dividing a model into components keeps its equations and what they determine

The pass gives the matched equations to the dependency graph and clones, for each component, the instances with the indices
of the component; the indices of the matched variable are computed again from the writes. Each scalar equation is to be in
the components once, and each scalar variable is to be determined once as before.

This is false, because the search of the cycles may give a scalar equation twice (C37). Proved: if the assertion on the
cycles holds, and each instance is as C109 claims (each scalar equation has a variable of its own, given by each write), both
are kept, whatever the components are; so, after the matching pass, the unknowns of the model are determined exactly once. For
models of scalar equations and variables this is proved from the text of the model to the components without assumptions
on the algorithms. A clone may not be as C109 claims although the instance is: a read may lie within the matched indices that
remain (`C110_clone_wrong`).
-/

namespace Marco.Props
open Marco Matching Mat Spec Marco.Cycles Marco.MatchPass Marco.Spec.MatchPass

/-- The claim, in full. -/
def C110_full : Prop := ∀ (vid : String → Nat) (accs : Nat → List MatchPass.Acc) (es : List (Inst Unit)) (rep : Rep)
    (sccs : List (List Nat)) (fuel : Nat) (out : List (List View)),
  (∀ e ∈ es, ∀ a ∈ accs e.template, ∀ e' ∈ es, ∀ a' ∈ accs e'.template, vid a.var = vid a'.var → a.var = a'.var) →
  EqsOk es → RankOk es →
  (∀ e ∈ es, Ready (accs e.template) e) → rep.Ok → Spec.Matched (toEqns vid accs es) →
  ArrayComponents (toEqns vid accs es) sccs → (∀ i ∈ sccs.flatten, i < es.length) →
  GetSCCs (toEqns vid accs es) rep fuel sccs out → SccClaim es (computeSCCs accs es out)

section
variable {P : Type} {vid : String → Nat} {accs : Nat → List MatchPass.Acc} {es : List (Inst P)}

/-- The writes of an instance that is ready denote the same elements. -/
theorem C110_sameWrites (he : EqsOk es) (hr : ∀ e ∈ es, Ready (accs e.template) e) (i : Nat) :
    SameWrites (toEqns vid accs es i) := by
  cases hi : es[i]? with
  | none => simp [toEqns, hi, SameWrites]
  | some e =>
    have hmem := List.mem_of_getElem? hi
    obtain ⟨n, s, hm, -, hsc, g, -, hu, -⟩ := hr e hmem
    have var : ∀ a ∈ writeAccesses (accs e.template) e, a.var = n := by
      intro a ha
      simp only [writeAccesses, hm, List.mem_filter, Bool.and_eq_true, beq_iff_eq] at ha
      exact ha.2.1
    simp only [toEqns, hi, toEqn, SameWrites, List.mem_map]
    rintro _ ⟨a, ha, rfl⟩ _ ⟨b, hb, rfl⟩
    refine ⟨by simp only [toAcc, var a ha, var b hb], ?_⟩
    intro p hp
    have hp' : toPoint e p ∈ points e := by
      have := points_eq (he e hmem)
      rw [← Finset.mem_val, this]
      exact Multiset.mem_map.2 ⟨p, hp, rfl⟩
    have hab := (hu a ha _ hp').trans (hu b hb _ hp').symm
    have h2 := (Prod.mk.inj hab).2
    simp only [toAcc, conv, Finset.singleton_inj]
    by_cases hs : s = ∅
    · simp [(hsc a ha).2 hs, (hsc b hb).2 hs]
    · have h3 : a.scalar = false := by
        cases h : a.scalar
        · rfl
        · exact absurd ((hsc a ha).1 h) hs
      have h4 : b.scalar = false := by
        cases h : b.scalar
        · rfl
        · exact absurd ((hsc b hb).1 h) hs
      simp only [h3, h4, Bool.false_eq_true, if_false] at h2 ⊢
      by_cases h0 : e.inductions = 0
      · simpa [h0] using h2
      · simpa [h0, toPoint] using h2

/-- The views of the components. -/
theorem C110_views (he : EqsOk es) (hr : ∀ e ∈ es, Ready (accs e.template) e) {rep : Rep} (hrep : rep.Ok)
    {sccs : List (List Nat)} (hlt : ∀ i ∈ sccs.flatten, i < es.length) {fuel : Nat} {out : List (List View)}
    (h : GetSCCs (toEqns vid accs es) rep fuel sccs out) : ∀ v ∈ out.flatten, ∃ e, es[v.1]? = some e ∧
      v.2 ⊆ mask e.indices ∧ v.2.Nonempty := by
  intro v hv
  have hne := getSCCs_nonempty hrep (fun e _ => C110_sameWrites he hr e) h v hv
  have own : ∀ p ∈ v.2, v.1 ∈ sccs.flatten ∧ p ∈ (toEqns vid accs es v.1).it := by
    intro p hp
    refine C37_only_own _ rep hrep fuel sccs out h (v.1, p) ?_
    rw [occurrences_eq]
    exact countP_pos_of ⟨v, hv, hasScalar_iff.2 ⟨rfl, hp⟩⟩
  obtain ⟨p, hp⟩ := hne
  have hi := List.getElem?_eq_getElem (hlt _ (own p hp).1)
  refine ⟨_, hi, fun q hq => ?_, ⟨p, hp⟩⟩
  have := (own q hq).2
  rwa [toEqns_it hi] at this

/-- The equations in the components. -/
theorem C110_equations (he : EqsOk es) (hrk : RankOk es) {out : List (List View)}
    (h : ∀ v ∈ out.flatten, ∃ e, es[v.1]? = some e ∧ v.2 ⊆ mask e.indices ∧ v.2.Nonempty) {d : Nat × P × Point} :
    scalarEqs (computeSCCs accs es out).flatten = (scalarsOf out.flatten).map fun s =>
      ((es[s.1]?).map fun e => (e.template, e.props, toPoint e s.2)).getD d := by
  rw [scalarEqs_flat]
  refine sum_compute _ _ fun v hv => ?_
  obtain ⟨e, hi, hsub, hne⟩ := h v hv
  have hmem := List.mem_of_getElem? hi
  refine ⟨e, hi, ?_⟩
  rw [(sccInstance_spec (accs := accs e.template) (he e hmem) (hrk e hmem) hsub hne).1]
  simp only [hi]
  rfl

/-- If the components have each scalar equation once, both are kept. -/
theorem C110_components (he : EqsOk es) (hrk : RankOk es) (hr : ∀ e ∈ es, Ready (accs e.template) e) {all : List Nat}
    {out : List (List View)} (hall : ∀ i < es.length, i ∈ all) (hp : PartitionsScalars (toEqns vid accs es) all out)
    (h : ∀ v ∈ out.flatten, ∃ e, es[v.1]? = some e ∧ v.2 ⊆ mask e.indices ∧ v.2.Nonempty) :
    SccClaim es (computeSCCs accs es out) := by
  classical
  by_cases hes : es = []
  · subst hes
    have : out.flatten = [] := by
      rw [List.eq_nil_iff_forall_not_mem]
      intro v hv
      obtain ⟨e, hi, -⟩ := h v hv
      simp at hi
    simp only [SccClaim, compute_flatten, this]
    exact ⟨rfl, rfl⟩
  obtain ⟨e0, hmem0⟩ := List.exists_mem_of_ne_nil _ hes
  have hsc := scalars_eq hp hall
  constructor
  · rw [C110_equations he hrk h (d := (e0.template, e0.props, [])), hsc, scalarEqs_flat es]
    refine (sum_equations es _ _ fun i e hi => ?_).symm
    have hmem := List.mem_of_getElem? hi
    have := (sccInstance_spec (accs := accs e.template) (he e hmem) (hrk e hmem) (subset_refl (mask e.indices)) (by
      rw [mask]; split_ifs with h
      · exact ⟨_, Finset.mem_singleton_self _⟩
      · exact Finset.nonempty_iff_ne_empty.2 h)).1
    simp only [hi]
    by_cases h0 : e.inductions = 0
    · rw [sccInstance, if_pos h0] at this
      rw [this]
      rfl
    · have hn : e.indices ≠ ∅ := fun h => h0 ((he e hmem).2 h)
      simp [scalarEqs, h0, mask_ne hn, toPoint]
  · choose! n s hm hw hsca g hinj hu hv using hr
    let F : ScalarEq → String × Point := fun x => ((es[x.1]?).map fun e => g e (toPoint e x.2)).getD ("", [])
    rw [matchedVars_flat, sum_compute (fun e => MatchPass.matchedVars [e]) F, hsc, matchedVars_flat es]
    · refine (sum_equations es _ _ fun i e hi => ?_).symm
      have hmem := List.mem_of_getElem? hi
      rw [hv e hmem, points_eq (he e hmem), Multiset.map_map]
      simp only [F, hi]
      rfl
    · intro v hvm
      obtain ⟨e, hi, hsub, hne⟩ := h v hvm
      have hmem := List.mem_of_getElem? hi
      refine ⟨e, hi, ?_⟩
      rw [(sccInstance_spec (accs := accs e.template) (he e hmem) (hrk e hmem) hsub hne).2 _ _ (hm e hmem) (hw e hmem)
        (hsca e hmem) _ (hinj e hmem) (hu e hmem) (hv e hmem)]
      simp only [F, hi]
      rfl

/-- The pass, if the assertion on the cycles holds. -/
theorem C110_detection_partial (he : EqsOk es) (hrk : RankOk es) (hr : ∀ e ∈ es, Ready (accs e.template) e) {rep : Rep}
    (hrep : rep.Ok) {sccs : List (List Nat)} (hc : ArrayComponents (toEqns vid accs es) sccs)
    (hlt : ∀ i ∈ sccs.flatten, i < es.length) {fuel : Nat}
    (hassert : ∀ scc ∈ sccs, ∀ st, search (toEqns vid accs es) rep (writesMap (toEqns vid accs es) rep scc) fuel
      ⟨[], fun _ => ∅⟩ scc = some st → NoOverlaps (partition st.cycles))
    {out : List (List View)} (h : GetSCCs (toEqns vid accs es) rep fuel sccs out) :
    SccClaim es (computeSCCs accs es out) := by
  refine C110_components he hrk hr ?_ (C37_exactly_once_partial _ rep hrep fuel sccs hc.nodup
    (fun e _ => C110_sameWrites he hr e) hassert out h) (C110_views he hr hrep hlt h)
  intro i hi
  refine hc.all i ?_
  rw [toEqns_it (List.getElem?_eq_getElem hi), mask]
  split_ifs with h
  · exact ⟨_, Finset.mem_singleton_self _⟩
  · exact Finset.nonempty_iff_ne_empty.2 h

/-- Scalar equations: the search ends, and both are kept. -/
theorem C110_scalar_partial (he : ∀ e ∈ es, e.inductions = 0 ∧ e.indices = ∅) (hr : ∀ e ∈ es, Ready (accs e.template) e)
    {rep : Rep} (hrep : rep.Ok) {sccs : List (List Nat)} (hc : ArrayComponents (toEqns vid accs es) sccs)
    (hlt : ∀ i ∈ sccs.flatten, i < es.length) :
    (∃ fuel out, GetSCCs (toEqns vid accs es) rep fuel sccs out) ∧
    ∀ fuel out, GetSCCs (toEqns vid accs es) rep fuel sccs out → SccClaim es (computeSCCs accs es out) := by
  have he' : EqsOk es := fun e h => by simp [he e h]
  have hit : ∀ i ∈ sccs.flatten, IsScalar (toEqns vid accs es i) := by
    intro i hi
    have hg := List.getElem?_eq_getElem (hlt i hi)
    exact ⟨[0], by rw [toEqns_it hg, (he _ (List.mem_of_getElem? hg)).2, mask_empty]⟩
  obtain ⟨h1, h2⟩ := C37_scalar_partial (toEqns vid accs es) rep hrep sccs hc.nodup
    (fun e _ => C110_sameWrites he' hr e) hit
  refine ⟨h1, fun fuel out h => ?_⟩
  refine C110_components he' (fun e hm p hp => ?_) hr ?_ (h2 fuel out h) (C110_views he' hr hrep hlt h)
  · rw [(he e hm).2] at hp
    exact absurd hp (Finset.notMem_empty _)
  · intro i hi
    refine hc.all i ?_
    rw [toEqns_it (List.getElem?_eq_getElem hi), mask]
    split_ifs with h
    · exact ⟨_, Finset.mem_singleton_self _⟩
    · exact Finset.nonempty_iff_ne_empty.2 h

end

section
variable {P : Type} {accs : Nat → List MatchPass.Acc} {bs : List VBridge} {es : List (Inst P)} {m : Nat → Mat}

/-- An instance made by the matching pass, as claimed by C109, is ready. -/
theorem C110_ready (he : EqsOk es) (ha : AccsOk accs bs es) (hm : Perfect (buildGraph bs es (edgesOf accs bs es)) m)
    {i j : Nat} {e : Inst P} {b : VBridge} (hi : es[i]? = some e) (hj : bs[j]? = some b)
    (hs : pairs (buildGraph bs es (edgesOf accs bs es)) m i j ≠ ∅)
    (hc : C109_claim (accs e.template) e b (pairs (buildGraph bs es (edgesOf accs bs es)) m i j)) :
    Ready (accs e.template) (instance_ e b (pairs (buildGraph bs es (edgesOf accs bs es)) m i j)) := by
  have hinc := pairs_incidence hm hi hj
  have hrow : ∀ p q q', (p, q) ∈ pairs (buildGraph bs es (edgesOf accs bs es)) m i j →
      (p, q') ∈ pairs (buildGraph bs es (edgesOf accs bs es)) m i j → q = q' :=
    fun p q q' => pairs_row (edgesOf_ok accs bs es) hm
  have hcol : ∀ p p' q, (p, q) ∈ pairs (buildGraph bs es (edgesOf accs bs es)) m i j →
      (p', q) ∈ pairs (buildGraph bs es (edgesOf accs bs es)) m i j → p = p' :=
    fun p p' q => pairs_col (edgesOf_ok accs bs es) hm
  generalize pairs (buildGraph bs es (edgesOf accs bs es)) m i j = s at *
  obtain ⟨c1, c2, -, -⟩ := hc
  have ok := fun a h => ha e (List.mem_of_getElem? hi) a h b (List.mem_of_getElem? hj)
  have hmask : ∀ p q, (p, q) ∈ s → p ∈ mask e.indices ∧ q ∈ mask b.2 := fun p q h =>
    ⟨(mem_incidence.1 (hinc h)).1, (mem_incidence.1 (hinc h)).2.1⟩
  obtain ⟨a0, l, hl⟩ := List.exists_cons_of_ne_nil c1
  have hm0 : a0 ∈ writeAccesses (accs e.template) (instance_ e b s) := by rw [hl]; simp
  have hun : ∀ p q, (p, q) ∈ s → ∀ a ∈ writeAccesses (accs e.template) (instance_ e b s),
      uses e a p = scalarVar b q := fun p q h a ha => c2 a ha p q h
  have hvar : ∀ p p' q q', (p, q) ∈ s → (p', q') ∈ s → scalarVar b q = scalarVar b q' → q = q' := by
    intro p p' q q' h h' hq
    by_cases hb : b.2 = ∅
    · have h1 := (hmask _ _ h).2
      have h2 := (hmask _ _ h').2
      rw [hb, mask_empty, Finset.mem_singleton] at h1 h2
      rw [h1, h2]
    · simpa [scalarVar, hb] using hq
  -- the values of the induction variables, and the indices in the graph
  have hpt : ∀ p, p ∈ points (instance_ e b s) → ∃ p' q, (p', q) ∈ s ∧ toPoint e p' = p := by
    intro p hp
    by_cases h0 : e.inductions = 0
    · obtain ⟨⟨p', q⟩, hpq⟩ := Finset.nonempty_iff_ne_empty.2 hs
      have : p = [] := by simpa [points, instance_, h0] using hp
      exact ⟨p', q, hpq, by simp [toPoint, h0, this]⟩
    · have : p ∈ s.eqsOf := by simpa [points, instance_, h0] using hp
      obtain ⟨q, hq⟩ := MatchPass.mem_eqsOf.1 this
      exact ⟨p, q, hq, by simp [toPoint, h0]⟩
  have htp : ∀ a p, uses e a (toPoint e p) = uses e a p := by
    intro a p
    by_cases h0 : e.inductions = 0 <;> simp [uses, toPoint, h0]
  have hus : ∀ a p, uses (instance_ e b s) a p = uses e a p := fun _ _ => rfl
  refine ⟨b.1, if b.2 = ∅ then ∅ else s.varsOf, rfl, c1, ?_, uses e a0, ?_, ?_, ?_⟩
  · intro a haw
    have hmem : a ∈ accs e.template := (List.mem_filter.1 haw).1
    obtain ⟨-, hv, -⟩ := (mem_writes hs (ok a hmem)).1 haw
    rw [ok a hmem hv]
    by_cases hb : b.2 = ∅ <;> simp [hb, (ofs_ne hs).2]
  · intro p hp p' hp' h
    obtain ⟨r, q, hrq, rfl⟩ := hpt p hp
    obtain ⟨r', q', hrq', rfl⟩ := hpt p' hp'
    rw [htp, htp, hun _ _ hrq a0 hm0, hun _ _ hrq' a0 hm0] at h
    have := hvar _ _ _ _ hrq hrq' h
    subst this
    rw [hcol _ _ _ hrq hrq']
  · intro a haw p hp
    obtain ⟨r, q, hrq, rfl⟩ := hpt p hp
    rw [hus, htp, htp, hun _ _ hrq a haw, hun _ _ hrq a0 hm0]
  · -- all in terms of the pairs
    have hpv : (points (instance_ e b s)).val = s.eqsOf.val.map (toPoint e) := by
      by_cases h0 : e.inductions = 0
      · have hp0 : s.eqsOf = {[0]} := eq_single (by
          intro p hp
          obtain ⟨q, hq⟩ := MatchPass.mem_eqsOf.1 hp
          have := (hmask _ _ hq).1
          rwa [(he e (List.mem_of_getElem? hi)).1 h0, mask_empty] at this) (ofs_ne hs).1
        simp [points, instance_, h0, hp0, toPoint]
      · have ht : toPoint e = id := by funext p; simp [toPoint, h0]
        simp [points, instance_, h0, ht]
    rw [hpv, Multiset.map_map]
    have hg : s.eqsOf.val.map (uses e a0 ∘ toPoint e) = s.eqsOf.val.map (uses e a0) :=
      Multiset.map_congr rfl fun p _ => htp a0 p
    rw [hg]
    have hvv : s.varsOf.val.map (scalarVar b) = s.eqsOf.val.map (uses e a0) := by
      have h1 : (s.val.map fun x => scalarVar b x.2) = s.val.map fun x => uses e a0 x.1 :=
        Multiset.map_congr rfl fun x hx => (hun x.1 x.2 hx a0 hm0).symm
      have h2 : s.varsOf.val = s.val.map fun x => x.2 := by
        show (s.image _).val = _
        exact Finset.image_val_of_injOn fun x hx y hy hxy => Prod.ext (hcol x.1 y.1 x.2 hx (by
          have : x.2 = y.2 := hxy
          rw [this]; exact hy)) hxy
      have h3 : s.eqsOf.val = s.val.map fun x => x.1 := by
        show (s.image _).val = _
        exact Finset.image_val_of_injOn fun x hx y hy hxy => Prod.ext hxy (hrow x.1 x.2 y.2 hx (by
          have : x.1 = y.1 := hxy
          rw [this]; exact hy))
      rw [h2, h3, Multiset.map_map, Multiset.map_map]
      exact h1
    rw [← hvv]
    by_cases hb : b.2 = ∅
    · have hq0 : s.varsOf = {[0]} := eq_single (by
        intro q hq
        obtain ⟨p, hp⟩ := MatchPass.mem_varsOf.1 hq
        have := (hmask _ _ hp).2
        rwa [hb, mask_empty] at this) (ofs_ne hs).2
      simp [MatchPass.matchedVars, instance_, hb, hq0, scalarVar]
    · have : scalarVar b = fun p => (b.1, p) := by funext p; simp [scalarVar, hb]
      simp [MatchPass.matchedVars, instance_, hb, (ofs_ne hs).2, this]

/-- What the matching pass creates. -/
theorem C110_created (he : EqsOk es) (hrk : RankOk es) (ha : AccsOk accs bs es)
    (hm : Perfect (buildGraph bs es (edgesOf accs bs es)) m)
    (hc : ∀ i j e b, es[i]? = some e → bs[j]? = some b → pairs (buildGraph bs es (edgesOf accs bs es)) m i j ≠ ∅ →
      C109_claim (accs e.template) e b (pairs (buildGraph bs es (edgesOf accs bs es)) m i j))
    {es' : List (Inst P)} (hes : es' = created (buildGraph bs es (edgesOf accs bs es)) m bs es) :
    EqsOk es' ∧ RankOk es' ∧ (∀ e ∈ es', Ready (accs e.template) e) ∧
    ∀ e' ∈ es', ∃ e ∈ es, e'.inductions = e.inductions := by
  have hcr : ∀ e' ∈ es', ∃ i j e b, es[i]? = some e ∧ bs[j]? = some b ∧
      pairs (buildGraph bs es (edgesOf accs bs es)) m i j ≠ ∅ ∧
      e' = instance_ e b (pairs (buildGraph bs es (edgesOf accs bs es)) m i j) := by
    intro e' hmem
    rw [hes] at hmem
    simp only [created, List.mem_flatMap, List.mem_filterMap] at hmem
    obtain ⟨e, hem, b, hbm, hx⟩ := hmem
    split_ifs at hx with hne
    exact ⟨_, _, _, _, mem_zipIdx hem, mem_zipIdx hbm, hne, (Option.some.inj hx).symm⟩
  have hsub : ∀ i j e b, es[i]? = some e → bs[j]? = some b →
      (pairs (buildGraph bs es (edgesOf accs bs es)) m i j).eqsOf ⊆ mask e.indices := by
    intro i j e b hi hj p hp
    obtain ⟨q, hq⟩ := MatchPass.mem_eqsOf.1 hp
    exact (mem_incidence.1 (pairs_incidence hm hi hj hq)).1
  refine ⟨?_, ?_, ?_, ?_⟩
  · intro e' hmem
    obtain ⟨i, j, e, b, hi, hj, hne, rfl⟩ := hcr e' hmem
    by_cases h0 : e.inductions = 0
    · simp [instance_, h0, (he e (List.mem_of_getElem? hi)).1 h0]
    · simp [instance_, h0, (ofs_ne hne).1]
  · intro e' hmem p hp
    obtain ⟨i, j, e, b, hi, hj, hne, rfl⟩ := hcr e' hmem
    have hemem := List.mem_of_getElem? hi
    by_cases h0 : e.inductions = 0
    · simp only [instance_, h0, ne_eq, not_true_eq_false, if_false, (he e hemem).1 h0] at hp
      exact absurd hp (Finset.notMem_empty _)
    · simp only [instance_, h0, ne_eq, not_false_eq_true, if_true] at hp
      have := hsub i j e b hi hj hp
      rw [mask_ne (fun h => h0 ((he e hemem).2 h))] at this
      exact hrk e hemem p this
  · intro e' hmem
    obtain ⟨i, j, e, b, hi, hj, hne, rfl⟩ := hcr e' hmem
    exact C110_ready he ha hm hi hj hne (hc i j e b hi hj hne)
  · intro e' hmem
    obtain ⟨i, j, e, b, hi, hj, hne, rfl⟩ := hcr e' hmem
    exact ⟨e, List.mem_of_getElem? hi, rfl⟩

/-- From the matching to the components: each unknown is determined once, and each scalar equation is there once. -/
theorem C110_pipeline_partial {vid : String → Nat} {ph : Phase} {vs : List Var} (hv : VarsOk vs) (hb : bs = bridges ph vs)
    (he : EqsOk es) (hrk : RankOk es) (ha : AccsOk accs bs es)
    (hm : Perfect (buildGraph bs es (edgesOf accs bs es)) m)
    (hc : ∀ i j e b, es[i]? = some e → bs[j]? = some b → pairs (buildGraph bs es (edgesOf accs bs es)) m i j ≠ ∅ →
      C109_claim (accs e.template) e b (pairs (buildGraph bs es (edgesOf accs bs es)) m i j))
    {es' : List (Inst P)} (hes : es' = created (buildGraph bs es (edgesOf accs bs es)) m bs es) {rep : Rep} (hrep : rep.Ok)
    {sccs : List (List Nat)} (harr : ArrayComponents (toEqns vid accs es') sccs)
    (hlt : ∀ i ∈ sccs.flatten, i < es'.length) {fuel : Nat}
    (hassert : ∀ scc ∈ sccs, ∀ st, search (toEqns vid accs es') rep (writesMap (toEqns vid accs es') rep scc) fuel
      ⟨[], fun _ => ∅⟩ scc = some st → NoOverlaps (partition st.cycles))
    {out : List (List View)} (h : GetSCCs (toEqns vid accs es') rep fuel sccs out) :
    scalarEqs (computeSCCs accs es' out).flatten = scalarEqs es ∧
    MatchPass.matchedVars (computeSCCs accs es' out).flatten = (vs.map (unknown ph)).sum := by
  obtain ⟨he', hrk', hr, -⟩ := C110_created he hrk ha hm hc hes
  obtain ⟨h1, h2⟩ := C110_detection_partial he' hrk' hr hrep harr hlt hassert h
  rw [h1, h2, hes, created_eqs (edgesOf_ok accs bs es) hm he, created_vars (edgesOf_ok accs bs es) hm, unknowns_eq hv, hb]
  exact ⟨rfl, rfl⟩

/-- The same for scalar equations, without assumptions on the accesses and on the search. The variables may be arrays. -/
theorem C110_scalar_pipeline_partial {vid : String → Nat} {ph : Phase} {vs : List Var} (hv : VarsOk vs)
    (hb : bs = bridges ph vs) (he : ∀ e ∈ es, e.inductions = 0 ∧ e.indices = ∅) (ha : AccsOk accs bs es)
    (hm : Perfect (buildGraph bs es (edgesOf accs bs es)) m)
    {es' : List (Inst P)} (hes : es' = created (buildGraph bs es (edgesOf accs bs es)) m bs es) {rep : Rep} (hrep : rep.Ok)
    {sccs : List (List Nat)} (harr : ArrayComponents (toEqns vid accs es') sccs)
    (hlt : ∀ i ∈ sccs.flatten, i < es'.length) :
    (∃ fuel out, GetSCCs (toEqns vid accs es') rep fuel sccs out) ∧
    ∀ fuel out, GetSCCs (toEqns vid accs es') rep fuel sccs out →
      scalarEqs (computeSCCs accs es' out).flatten = scalarEqs es ∧
      MatchPass.matchedVars (computeSCCs accs es' out).flatten = (vs.map (unknown ph)).sum := by
  have he0 : EqsOk es := fun e h => by simp [he e h]
  have hrk : RankOk es := fun e h p hp => by
    rw [(he e h).2] at hp
    exact absurd hp (Finset.notMem_empty _)
  obtain ⟨he', hrk', hr, hin⟩ := C110_created he0 hrk ha hm (fun i j e b hi hj hs =>
    C109_scalar_equation_partial he0 ha hm hi hj hs (he e (List.mem_of_getElem? hi)).1) hes
  have hsc : ∀ e ∈ es', e.inductions = 0 ∧ e.indices = ∅ := by
    intro e' hmem
    obtain ⟨e, hem, h⟩ := hin e' hmem
    have h0 : e'.inductions = 0 := by rw [h, (he e hem).1]
    exact ⟨h0, (he' e' hmem).1 h0⟩
  obtain ⟨h1, h2⟩ := C110_scalar_partial hsc hr hrep harr hlt
  refine ⟨h1, fun fuel out h => ?_⟩
  obtain ⟨h3, h4⟩ := h2 fuel out h
  rw [h3, h4, hes, created_eqs (edgesOf_ok accs bs es) hm he0, created_vars (edgesOf_ok accs bs es) hm, unknowns_eq hv, hb]
  exact ⟨rfl, rfl⟩

end

namespace C110_Sample

/-- The numbers of the variables. -/
def vid (n : String) : Nat := ((n.toList.map Char.toNat).headD 97) - 97

/-- An access `n[c * i + d]`. -/
def acc (n : String) (c d : Int) : MatchPass.Acc := ⟨n, false, fun p => [c * p.headD 0 + d]⟩

/-- The equations `C37_dup`: `for i in 2:3: d[i] = b[i] + a[i]`, `for i in 1:3: b[i] = d[i] + e[i]`,
`for i in 1:3: a[i] = d[i] + e[i]`, `for i in 1:2: e[i] = a[i]`. -/
def es : List (Inst Unit) := [⟨0, 1, pts [2, 3], some ("d", pts [2, 3]), ()⟩, ⟨1, 1, pts [1, 2, 3], some ("b", pts [1, 2, 3]), ()⟩,
  ⟨2, 1, pts [1, 2, 3], some ("a", pts [1, 2, 3]), ()⟩, ⟨3, 1, pts [1, 2], some ("e", pts [1, 2]), ()⟩]

/-- Their accesses. -/
def accs : Nat → List MatchPass.Acc
  | 0 => [acc "d" 1 0, acc "b" 1 0, acc "a" 1 0]
  | 1 => [acc "b" 1 0, acc "d" 1 0, acc "e" 1 0]
  | 2 => [acc "a" 1 0, acc "d" 1 0, acc "e" 1 0]
  | 3 => [acc "e" 1 0, acc "a" 1 0]
  | _ => []

/-- The equations `C37_good`: `for i in 0:3: a[i] = b[i]`, `for i in 0:1: b[i] = a[i]`, `for i in 2:3: b[i] = c[i]`,
`for i in 2:3: c[i] = a[i]`. -/
def es' : List (Inst Unit) := [⟨0, 1, pts [0, 1, 2, 3], some ("a", pts [0, 1, 2, 3]), ()⟩,
  ⟨1, 1, pts [0, 1], some ("b", pts [0, 1]), ()⟩, ⟨2, 1, pts [2, 3], some ("b", pts [2, 3]), ()⟩,
  ⟨3, 1, pts [2, 3], some ("c", pts [2, 3]), ()⟩]

/-- Their accesses. -/
def accs' : Nat → List MatchPass.Acc
  | 0 => [acc "a" 1 0, acc "b" 1 0]
  | 1 => [acc "b" 1 0, acc "a" 1 0]
  | 2 => [acc "b" 1 0, acc "c" 1 0]
  | 3 => [acc "c" 1 0, acc "a" 1 0]
  | _ => []

/-- `for i in 0:2: a[i] = 2 * a[3-i]`. -/
def mirror : Inst Unit := ⟨0, 1, pts [0, 1, 2], some ("a", pts [0, 1, 2]), ()⟩

/-- Its accesses. -/
def mirrorAccs : List MatchPass.Acc := [acc "a" 1 0, acc "a" (-1) 3]

/-- `Real a[2], b[2]`. -/
def vs1 : List Var := [⟨"a", false, [2], false, none⟩, ⟨"b", false, [2], false, none⟩]

/-- `for i in 0:1 loop a[i] = 2 * b[i]` and `for i in 0:1 loop a[i] + b[i] = 1`. -/
def es1 : List (Inst Unit) := [⟨0, 1, pts [0, 1], none, ()⟩, ⟨1, 1, pts [0, 1], none, ()⟩]

/-- The accesses. -/
def accs1 : Nat → List MatchPass.Acc
  | 0 => [acc "a" 1 0, acc "b" 1 0]
  | 1 => [acc "a" 1 0, acc "b" 1 0]
  | _ => []

/-- The matching. -/
def m1 : Nat → Mat
  | 0 => {([0], [0]), ([1], [1])}
  | 3 => {([0], [0]), ([1], [1])}
  | _ => ∅

/-- What is created. -/
def es1' : List (Inst Unit) := [⟨0, 1, pts [0, 1], some ("a", pts [0, 1]), ()⟩, ⟨1, 1, pts [0, 1], some ("b", pts [0, 1]), ()⟩]

/-- `Real a, b`. -/
def vs2 : List Var := [⟨"a", true, [], false, none⟩, ⟨"b", true, [], false, none⟩]

/-- `a = 2 * b` and `a + b = 1`. -/
def es2 : List (Inst Unit) := [⟨0, 0, ∅, none, ()⟩, ⟨1, 0, ∅, none, ()⟩]

/-- The accesses. -/
def accs2 : Nat → List MatchPass.Acc
  | 0 => [⟨"a", true, id⟩, ⟨"b", true, id⟩]
  | 1 => [⟨"a", true, id⟩, ⟨"b", true, id⟩]
  | _ => []

/-- The matching. -/
def m2 : Nat → Mat
  | 0 => {([0], [0])}
  | 3 => {([0], [0])}
  | _ => ∅

/-- What is created. -/
def es2' : List (Inst Unit) := [⟨0, 0, ∅, some ("a", ∅), ()⟩, ⟨1, 0, ∅, some ("b", ∅), ()⟩]

end C110_Sample
open C110_Sample

/-- Instances with one write. -/
theorem C110_ready_of {P : Type} {accs : List MatchPass.Acc} {e : Inst P} {n : String} {s : Finset Point}
    {w : MatchPass.Acc} (hm : e.matched = some (n, s)) (hw : writeAccesses accs e = [w]) (hsc : w.scalar ↔ s = ∅)
    (hinj : ∀ p ∈ points e, ∀ p' ∈ points e, uses e w p = uses e w p' → p = p')
    (hv : MatchPass.matchedVars [e] = (points e).val.map (uses e w)) : Ready accs e := by
  refine ⟨n, s, hm, by simp [hw], ?_, uses e w, hinj, ?_, hv⟩
  · rw [hw]; simpa using hsc
  · rw [hw]; simp

/-- The instances of the samples are ready. -/
theorem C110_sample_ready : (∀ e ∈ es, Ready (accs e.template) e) ∧ (∀ e ∈ es', Ready (accs' e.template) e) ∧
    Ready mirrorAccs mirror := by
  refine ⟨?_, ?_, ?_⟩
  · intro e he
    simp only [es, List.mem_cons, List.not_mem_nil, or_false] at he
    rcases he with rfl | rfl | rfl | rfl <;> exact C110_ready_of rfl rfl (by decide) (by decide) (by decide)
  · intro e he
    simp only [es', List.mem_cons, List.not_mem_nil, or_false] at he
    rcases he with rfl | rfl | rfl | rfl <;> exact C110_ready_of rfl rfl (by decide) (by decide) (by decide)
  · exact C110_ready_of rfl rfl (by decide) (by decide) (by decide)

/-- The equations of the graph. -/
theorem C110_sample_eqs : toEqns vid accs es = C37_dup ∧ toEqns vid accs' es' = C37_good := by
  constructor <;> funext i <;> match i with
    | 0 => rfl
    | 1 => rfl
    | 2 => rfl
    | 3 => rfl
    | _ + 4 => rfl

theorem C110_sample_ok : EqsOk es ∧ RankOk es ∧ EqsOk es' ∧ RankOk es' := by
  refine ⟨?_, ?_, ?_, ?_⟩ <;> simp only [EqsOk, RankOk, es, es'] <;> decide

/-- The claim is false: `d[2] = b[2] + a[2]` is in two places. -/
theorem C110_full_false : ¬ C110_full := by
  intro h
  obtain ⟨⟨out, hout⟩, h2⟩ := C37_duplicates
  have hg : GetSCCs (toEqns vid accs es) rep1 20 [[2, 3, 1, 0]] out := by rw [C110_sample_eqs.1]; exact hout
  have hlt : ∀ i ∈ [[2, 3, 1, 0]].flatten, i < es.length := by decide
  have hc := (h vid accs es rep1 [[2, 3, 1, 0]] 20 out (by decide) C110_sample_ok.1 C110_sample_ok.2.1 C110_sample_ready.1
    rep1_ok (by rw [C110_sample_eqs.1]; exact C37_dup_matched) (by rw [C110_sample_eqs.1]; exact C37_dup_components) hlt
    hg).1
  rw [C110_equations C110_sample_ok.1 C110_sample_ok.2.1 (C110_views C110_sample_ok.1 C110_sample_ready.1 rep1_ok hlt hg)
    (d := (0, (), []))] at hc
  have h3 := congrArg (Multiset.count (0, (), [2])) hc
  have h4 : Multiset.count (0, (), [2]) (scalarEqs es) = 1 := by decide
  rw [h4, Multiset.count_map] at h3
  have h5 : 2 ≤ Multiset.count (0, [2]) (scalarsOf out.flatten) := by
    rw [count_scalarsOf, ← occurrences_eq, h2 out hout]
  have h6 : Multiset.count (0, [2]) (scalarsOf out.flatten) ≤ 1 := by
    rw [← h3, Multiset.count_eq_card_filter_eq]
    refine Multiset.card_le_card (Multiset.monotone_filter_right _ ?_)
    rintro _ rfl
    rfl
  omega

/-- The clone of an instance that is ready need not be: with the indices 1 and 2, `a[3-i]` is a write also. -/
theorem C110_clone_wrong : Ready mirrorAccs mirror ∧ (readAccesses mirrorAccs mirror).length = 1 ∧
    readAccesses mirrorAccs (sccInstance mirrorAccs mirror (pts [1, 2])) = [] ∧
    ¬ Ready mirrorAccs (sccInstance mirrorAccs mirror (pts [1, 2])) := by
  refine ⟨C110_sample_ready.2.2, by decide, List.length_eq_zero_iff.1 (by decide), ?_⟩
  rintro ⟨n, s, -, -, -, g, -, hu, -⟩
  have h : writeAccesses mirrorAccs (sccInstance mirrorAccs mirror (pts [1, 2])) = [acc "a" 1 0, acc "a" (-1) 3] := rfl
  rw [h] at hu
  have h1 := hu (acc "a" 1 0) (by simp) [1] (by decide)
  have h2 := hu (acc "a" (-1) 3) (by simp) [1] (by decide)
  have := h1.trans h2.symm
  revert this
  decide

/-- The hypotheses, where the cycles divide the first equation. -/
example : ∃ out, GetSCCs (toEqns vid accs' es') rep1 20 [[0, 1, 2, 3]] out ∧ SccClaim es' (computeSCCs accs' es' out) := by
  obtain ⟨out, h, -⟩ := C37_good_ok
  have hg : GetSCCs (toEqns vid accs' es') rep1 20 [[0, 1, 2, 3]] out := by rw [C110_sample_eqs.2]; exact h
  have hcomp : ArrayComponents C37_good [[0, 1, 2, 3]] := by
    refine components_of_tour (x := 0) (l := [1, 0, 2, 3]) (by decide) ?_ ?_ (by decide)
    · intro e he
      have := eqsOf_lt he
      simp only [List.length_cons, List.length_nil] at this
      simp only [List.mem_cons, List.not_mem_nil, or_false]
      omega
    · simp only [List.cons_append, List.nil_append, List.isChain_cons_cons, List.isChain_singleton, and_true]
      exact ⟨⟨[0], [0], depB_iff.1 (by decide +kernel)⟩, ⟨[0], [0], depB_iff.1 (by decide +kernel)⟩,
        ⟨[2], [2], depB_iff.1 (by decide +kernel)⟩, ⟨[2], [2], depB_iff.1 (by decide +kernel)⟩,
        ⟨[2], [2], depB_iff.1 (by decide +kernel)⟩⟩
  refine ⟨out, hg, C110_detection_partial C110_sample_ok.2.2.1 C110_sample_ok.2.2.2 C110_sample_ready.2.1 rep1_ok
    (by rw [C110_sample_eqs.2]; exact hcomp) (by decide) ?_ hg⟩
  intro scc hscc st hst
  rw [List.mem_singleton] at hscc
  subst hscc
  rw [C110_sample_eqs.2] at hst
  have he : (match search C37_good rep1 (writesMap C37_good rep1 [0, 1, 2, 3]) 20 ⟨[], fun _ => ∅⟩ [0, 1, 2, 3] with
    | some st => noOverlapsB (partition st.cycles)
    | none => false) = true := by decide +kernel
  rw [hst] at he
  exact noOverlapsB_iff he

/-- The matchings are perfect. -/
theorem C110_sample_perfect :
    Perfect (buildGraph (bridges .main vs1) es1 (edgesOf accs1 (bridges .main vs1) es1)) m1 ∧
    Perfect (buildGraph (bridges .main vs2) es2 (edgesOf accs2 (bridges .main vs2) es2)) m2 := by
  constructor <;> refine perfect_of (by decide) ?_ (by decide) (by decide) <;> intro k hk <;> match k, hk with
    | 0, hk => exact absurd (by decide) hk
    | 1, hk => exact absurd (by decide) hk
    | 2, hk => exact absurd (by decide) hk
    | 3, hk => exact absurd (by decide) hk
    | _ + 4, _ => rfl

deriving instance DecidableEq for Inst

/-- What is created. -/
theorem C110_sample_created :
    es1' = created (buildGraph (bridges .main vs1) es1 (edgesOf accs1 (bridges .main vs1) es1)) m1 (bridges .main vs1) es1 ∧
    es2' = created (buildGraph (bridges .main vs2) es2 (edgesOf accs2 (bridges .main vs2) es2)) m2 (bridges .main vs2)
      es2 := by
  constructor <;> decide +kernel

/-- The equations of the graph. -/
theorem C110_sample_eqs' :
    toEqns vid accs1 es1' = eqsOf [⟨pts [0, 1], [lin 0 1 0], [lin 1 1 0]⟩, ⟨pts [0, 1], [lin 1 1 0], [lin 0 1 0]⟩] ∧
    toEqns vid accs2 es2' = eqsOf [⟨{[0]}, [⟨0, fun _ => {[0]}⟩], [⟨1, fun _ => {[0]}⟩]⟩,
      ⟨{[0]}, [⟨1, fun _ => {[0]}⟩], [⟨0, fun _ => {[0]}⟩]⟩] := by
  constructor <;> funext i <;> match i with
    | 0 => rfl
    | 1 => rfl
    | _ + 2 => rfl

/-- The components of the arrays. -/
theorem C110_sample_components : ArrayComponents (toEqns vid accs1 es1') [[0, 1]] ∧
    ArrayComponents (toEqns vid accs2 es2') [[0, 1]] := by
  rw [C110_sample_eqs'.1, C110_sample_eqs'.2]
  constructor <;> refine components_of_tour (x := 0) (l := [1]) (by decide) ?_ ?_ (by decide)
  · intro e he
    have := eqsOf_lt he
    simp only [List.length_cons, List.length_nil] at this
    simp only [List.mem_cons, List.not_mem_nil, or_false]
    omega
  · simp only [List.cons_append, List.nil_append, List.isChain_cons_cons, List.isChain_singleton, and_true]
    exact ⟨⟨[0], [0], depB_iff.1 (by decide +kernel)⟩, ⟨[0], [0], depB_iff.1 (by decide +kernel)⟩⟩
  · intro e he
    have := eqsOf_lt he
    simp only [List.length_cons, List.length_nil] at this
    simp only [List.mem_cons, List.not_mem_nil, or_false]
    omega
  · simp only [List.cons_append, List.nil_append, List.isChain_cons_cons, List.isChain_singleton, and_true]
    exact ⟨⟨[0], [0], depB_iff.1 (by decide +kernel)⟩, ⟨[0], [0], depB_iff.1 (by decide +kernel)⟩⟩

/-- The hypotheses, from the matching on, for arrays. -/
example : ∃ out, GetSCCs (toEqns vid accs1 es1') rep1 20 [[0, 1]] out ∧
    MatchPass.matchedVars (computeSCCs accs1 es1' out).flatten = {("a", [0]), ("a", [1]), ("b", [0]), ("b", [1])} := by
  have hex : ∃ out, GetSCCs (toEqns vid accs1 es1') rep1 20 [[0, 1]] out := by
    rw [C110_sample_eqs'.1]
    exact (occurrences_of (s := (0, [0])) (n := 1) (by decide +kernel)).1
  obtain ⟨out, h⟩ := hex
  have ha : AccsOk accs1 (bridges .main vs1) es1 := by simp [AccsOk, bridges, vs1, es1, accs1, acc, matchable]; decide
  refine ⟨out, h, ?_⟩
  rw [(C110_pipeline_partial (ph := .main) (vs := vs1) (by simp only [VarsOk, vs1]; decide) rfl
    (by simp only [EqsOk, es1]; decide) (by simp only [RankOk, es1]; decide) ha C110_sample_perfect.1 ?_
    C110_sample_created.1 rep1_ok C110_sample_components.1 (by decide) ?_ h).2]
  · decide
  · intro i j e b hi hj hs
    refine C109_one_access_partial ha C110_sample_perfect.1 hi hj hs ?_
    have hem := List.mem_of_getElem? hi
    simp only [es1, List.mem_cons, List.not_mem_nil, or_false] at hem
    rcases hem with rfl | rfl <;> simp only [accs1, List.mem_cons, List.not_mem_nil, or_false] <;>
      rintro a (rfl | rfl) a' (rfl | rfl) h1 h2 <;> first | rfl | exact absurd (h1.trans h2.symm) (by decide)
  · intro scc hscc st hst
    rw [List.mem_singleton] at hscc
    subst hscc
    rw [C110_sample_eqs'.1] at hst
    have he : (match search (eqsOf [⟨pts [0, 1], [lin 0 1 0], [lin 1 1 0]⟩, ⟨pts [0, 1], [lin 1 1 0], [lin 0 1 0]⟩]) rep1
        (writesMap (eqsOf [⟨pts [0, 1], [lin 0 1 0], [lin 1 1 0]⟩, ⟨pts [0, 1], [lin 1 1 0], [lin 0 1 0]⟩]) rep1 [0, 1]) 20
        ⟨[], fun _ => ∅⟩ [0, 1] with
      | some st => noOverlapsB (partition st.cycles)
      | none => false) = true := by decide +kernel
    rw [hst] at he
    exact noOverlapsB_iff he

/-- The hypotheses, for scalars. -/
example : ∃ fuel out, GetSCCs (toEqns vid accs2 es2') rep1 fuel [[0, 1]] out ∧
    MatchPass.matchedVars (computeSCCs accs2 es2' out).flatten = {("a", []), ("b", [])} := by
  have ha : AccsOk accs2 (bridges .main vs2) es2 := by simp [AccsOk, bridges, vs2, es2, accs2, matchable]; decide
  obtain ⟨⟨fuel, out, h1⟩, h2⟩ := C110_scalar_pipeline_partial (vid := vid) (ph := .main) (vs := vs2)
    (by simp only [VarsOk, vs2]; decide) rfl (by simp [es2]) ha C110_sample_perfect.2 C110_sample_created.2 rep1_ok
    C110_sample_components.2 (by decide)
  refine ⟨fuel, out, h1, ?_⟩
  rw [(h2 fuel out h1).2]
  decide

end Marco.Props
