import Verif.Lemmas.IdaPartition

/-!
# C99: the variables and the equations given to IDA

`IDAPass::solveMainModel` gives to IDA the variables it needs (with reduced systems the states, the derivatives and the
variables of cycles and implicit equations), closes the choice under the components, and leaves the other components to the
code generated. Proved, for all models and all orders of the sets: the choice is the least closed one, each equation is
handled once, and for systems of the first order IDA has as many equations as variables. With derivatives of derivatives it
does not, or some states are not states of IDA.
-/

namespace Marco.Props
open Marco.Ida Marco.Spec.Ida

/-- What holds at the end. -/
theorem C99_end (m : Model) (order : List (List Eqn) → List (List Eqn)) (ho : ∀ l, (order l).Perm l) (reduced : Bool) :
    Sound m reduced (solve m order reduced).1 ∧ Added m (solve m order reduced).1 (solve m order reduced).2 ∧
      (∀ v, (start m order reduced).has v = true → (solve m order reduced).1.has v = true) ∧
      Closed m (solve m order reduced).1 (solve m order reduced).2 := by
  unfold solve
  exact close_spec _ _ [] (sound_start ho reduced) (fun k hk => by cases hk) List.nodup_nil (by simp)

/-- The variables of IDA are those needed, the components those with a variable needed, the equations those of these
components. -/
theorem C99_least (m : Model) (order : List (List Eqn) → List (List Eqn)) (ho : ∀ l, (order l).Perm l) (reduced : Bool) :
    (∀ v, (solve m order reduced).1.has v = true ↔ Needed m reduced v) ∧
    (∀ k, k ∈ (solve m order reduced).2 ↔ ∃ s, m.sccs[k]? = some s ∧ NeededScc m reduced s) ∧
    (∀ e, e ∈ (solve m order reduced).1.eqs ↔ ∃ s ∈ m.sccs, e ∈ s ∧ NeededScc m reduced s) := by
  obtain ⟨hs, ha, hst, hc⟩ := C99_end m order ho reduced
  have h1 : ∀ v, (solve m order reduced).1.has v = true ↔ Needed m reduced v :=
    fun v => ⟨hs.1 v, complete ho hst ha hc⟩
  have h2 : ∀ k, k ∈ (solve m order reduced).2 ↔ ∃ s, m.sccs[k]? = some s ∧ NeededScc m reduced s := by
    intro k
    constructor
    · intro hk
      obtain ⟨s, hk', hne, h⟩ := ha k hk
      obtain ⟨e, he⟩ := List.exists_mem_of_ne_nil s hne
      exact ⟨s, hk', e, he, hs.1 _ (h e he).2⟩
    · rintro ⟨s, hk, e, he, hn⟩
      by_contra hne
      have := hc k s hk hne e he
      rw [(h1 _).2 hn] at this
      cases this
  refine ⟨h1, h2, fun e => ⟨hs.2 e, ?_⟩⟩
  rintro ⟨s, hs', he, hn⟩
  obtain ⟨k, hk⟩ := List.mem_iff_getElem?.1 hs'
  obtain ⟨t, ht, -, h⟩ := ha k ((h2 k).2 ⟨s, hk, hn⟩)
  rw [hk] at ht
  injection ht with ht
  subst ht
  exact (h e he).1

/-- The set of variables and equations does not depend on the order in which the sets of components are visited. -/
theorem C99_order (m : Model) (o1 o2 : List (List Eqn) → List (List Eqn)) (h1 : ∀ l, (o1 l).Perm l)
    (h2 : ∀ l, (o2 l).Perm l) (reduced : Bool) :
    (∀ v, (solve m o1 reduced).1.has v = (solve m o2 reduced).1.has v) ∧
    (∀ k, k ∈ (solve m o1 reduced).2 ↔ k ∈ (solve m o2 reduced).2) ∧
    ∀ e, e ∈ (solve m o1 reduced).1.eqs ↔ e ∈ (solve m o2 reduced).1.eqs := by
  obtain ⟨a1, b1, c1⟩ := C99_least m o1 h1 reduced
  obtain ⟨a2, b2, c2⟩ := C99_least m o2 h2 reduced
  exact ⟨fun v => Bool.eq_iff_iff.2 ((a1 v).trans (a2 v).symm), fun k => (b1 k).trans (b2 k).symm,
    fun e => (c1 e).trans (c2 e).symm⟩

/-- The components are those of IDA and those of the code generated: the list of the latter has the components that are not
of IDA, in order and with their multiplicity. -/
theorem C99_internal (m : Model) (ext : List Nat) (s : List Eqn) :
    s ∈ internal m ext ↔ ∃ k, m.sccs[k]? = some s ∧ k ∉ ext := by
  simp only [internal, List.mem_map, List.mem_filter]
  constructor
  · rintro ⟨⟨t, k⟩, ⟨h, hk⟩, rfl⟩
    exact ⟨k, List.mk_mem_zipIdx_iff_getElem?.1 h, by simpa using hk⟩
  · rintro ⟨k, h, hk⟩
    exact ⟨(s, k), ⟨List.mk_mem_zipIdx_iff_getElem?.2 h, by simpa using hk⟩, rfl⟩

/-- Each equation is solved either by IDA or by the code generated, and not by both; the code generated writes no variable of
IDA, and IDA writes only its variables. -/
theorem C99_partition (m : Model) (order : List (List Eqn) → List (List Eqn)) (ho : ∀ l, (order l).Perm l) (reduced : Bool)
    (hn : m.sccs.flatten.Nodup) :
    (∀ e ∈ m.sccs.flatten, (e ∈ (solve m order reduced).1.eqs) ↔
      ¬ e ∈ (internal m (solve m order reduced).2).flatten) ∧
    (∀ e ∈ (internal m (solve m order reduced).2).flatten, (solve m order reduced).1.has e.writes = false) ∧
    (∀ e ∈ (solve m order reduced).1.eqs, (solve m order reduced).1.has e.writes = true) ∧
    (internal m (solve m order reduced).2).flatten.Nodup ∧
    (internal m (solve m order reduced).2).flatten.Sublist m.sccs.flatten := by
  obtain ⟨h1, h2, h3⟩ := C99_least m order ho reduced
  obtain ⟨-, ha, -, hc⟩ := C99_end m order ho reduced
  have hint : ∀ e ∈ (internal m (solve m order reduced).2).flatten, (solve m order reduced).1.has e.writes = false := by
    intro e he
    obtain ⟨s, hs, hes⟩ := List.mem_flatten.1 he
    obtain ⟨k, hk, hke⟩ := (C99_internal _ _ _).1 hs
    exact hc k s hk hke e hes
  have hext : ∀ e ∈ (solve m order reduced).1.eqs, (solve m order reduced).1.has e.writes = true := by
    intro e he
    obtain ⟨s, hs, hes, e', he', hn'⟩ := (h3 e).1 he
    exact (h1 _).2 (.member hs he' hn' hes)
  have hsub : (internal m (solve m order reduced).2).Sublist m.sccs := by
    unfold internal
    have := (List.filter_sublist (l := m.sccs.zipIdx) (p := fun p => !(solve m order reduced).2.contains p.2)).map
      (fun p : List Eqn × Nat => p.1)
    have e : m.sccs.zipIdx.map (fun p : List Eqn × Nat => p.1) = m.sccs := List.zipIdx_map_fst 0 m.sccs
    rw [e] at this
    exact this
  have hsub' := sublist_flatten hsub
  refine ⟨fun e he => ⟨fun h h' => ?_, fun h => ?_⟩, hint, hext, hn.sublist hsub', hsub'⟩
  · have := hint e h'
    rw [hext e h] at this
    cases this
  · obtain ⟨s, hs, hes⟩ := List.mem_flatten.1 he
    obtain ⟨k, hk⟩ := List.mem_iff_getElem?.1 hs
    have hke : k ∈ (solve m order reduced).2 := by
      by_contra hke
      exact h (List.mem_flatten.2 ⟨s, (C99_internal _ _ _).2 ⟨k, hk, hke⟩, hes⟩)
    obtain ⟨t, ht, -, h'⟩ := ha k hke
    rw [hk] at ht
    injection ht with ht
    subst ht
    exact (h' e hes).1

/-- The full claim: IDA has as many equations as variables, and the states and derivatives of the model. -/
def C99_full : Prop :=
  ∀ (m : Model) (order : List (List Eqn) → List (List Eqn)) (reduced : Bool) (eqSize : Eqn → Nat) (varSize : Nat → Nat),
    (∀ l, (order l).Perm l) → Consistent m → Matched m eqSize varSize → SameSizes m varSize →
    Square (solve m order reduced).1 eqSize varSize ∧ Dynamic m (solve m order reduced).1

/-- The map of the derivatives is known for the states and the derivatives of the first order: partial. -/
theorem C99_square_partial (m : Model) (order : List (List Eqn) → List (List Eqn)) (reduced : Bool) (eqSize : Eqn → Nat)
    (varSize : Nat → Nat) (ho : ∀ l, (order l).Perm l) (hc : Consistent m) (hm : Matched m eqSize varSize)
    (hs : SameSizes m varSize) (hf : FirstOrder m) :
    Square (solve m order reduced).1 eqSize varSize ∧ Dynamic m (solve m order reduced).1 ∧
      (∀ v, v ∈ (solve m order reduced).1.alg ↔ Needed m reduced v ∧ m.der v = none ∧ m.derived v = none) ∧
      (∀ v, v ∈ (solve m order reduced).1.states ↔ (m.der v).isSome = true) ∧
      (∀ v, v ∈ (solve m order reduced).1.ders ↔ (m.derived v).isSome = true) := by
  obtain ⟨h1, -, h3⟩ := C99_least m order ho reduced
  have hw : Writes m := fun e he => ⟨(hm.2.1 e he).1, (hm.2.1 e he).2.2⟩
  have so : Sorted m (solve m order reduced).1 := by
    unfold solve; exact sorted_close hw _ _ _ (sorted_start hc hw ho reduced)
  obtain ⟨hpart, -, hext, -⟩ := C99_partition m order ho reduced hm.1
  obtain ⟨-, -, -, hcl⟩ := C99_end m order ho reduced
  generalize solve m order reduced = res at *
  obtain ⟨i, ext⟩ := res
  dsimp only at *
  have hned : ∀ v d, m.der v = some d → Needed m reduced v ∧ Needed m reduced d := by
    intro v d hd
    obtain ⟨hv, hdv, hr, hr'⟩ := hc.2 v d hd
    cases reduced
    · exact ⟨.any rfl hv (.inl (by rw [hd]; rfl)), .any rfl hdv (.inr (.inr hr'))⟩
    · exact ⟨.state rfl hv hd, .der rfl hv hd⟩
  have hstate : ∀ v, v ∈ i.states ↔ (m.der v).isSome = true := by
    intro v
    refine ⟨so.states v, fun h => ?_⟩
    obtain ⟨d, hd⟩ := Option.isSome_iff_exists.1 h
    have hh := has_iff.1 ((h1 v).2 (hned v d hd).1)
    rcases hh with hh | hh | hh
    · rw [(so.alg v hh).2.1] at hd; cases hd
    · exact hh
    · obtain ⟨w, hw'⟩ := Option.isSome_iff_exists.1 (so.ders v hh)
      rw [hf w v ((hc.1 w v).2 hw')] at hd; cases hd
  have hder : ∀ v, v ∈ i.ders ↔ (m.derived v).isSome = true := by
    intro v
    refine ⟨so.ders v, fun h => ?_⟩
    obtain ⟨w, hw'⟩ := Option.isSome_iff_exists.1 h
    have hd := (hc.1 w v).2 hw'
    have hh := has_iff.1 ((h1 v).2 (hned w v hd).2)
    rcases hh with hh | hh | hh
    · rw [(so.alg v hh).2.2.1] at hw'; cases hw'
    · have := so.states v hh
      rw [hf w v hd] at this; cases this
    · exact hh
  have halg : ∀ v, v ∈ i.alg ↔ Needed m reduced v ∧ m.der v = none ∧ m.derived v = none := by
    intro v
    constructor
    · intro h
      obtain ⟨-, a, b, -⟩ := so.alg v h
      exact ⟨(h1 v).1 (has_iff.2 (.inl h)), a, b⟩
    · rintro ⟨h, a, b⟩
      rcases has_iff.1 ((h1 v).2 h) with hh | hh | hh
      · exact hh
      · have := so.states v hh; rw [a] at this; cases this
      · have := so.ders v hh; rw [b] at this; cases this
  refine ⟨?_, fun v d hd => ⟨(hstate v).2 (by rw [hd]; rfl), (hder d).2 (by rw [(hc.1 v d).1 hd]; rfl)⟩, halg, hstate, hder⟩
  have hnd := List.nodup_append'.1 so.nodup
  have hnd' := List.nodup_append'.1 hnd.2.1
  -- the equations
  have hun : (i.alg ++ i.ders).Nodup := List.nodup_append'.2 ⟨hnd.1, hnd'.2.1, fun v a b =>
    hnd.2.2 a (List.mem_append.2 (.inr b))⟩
  have hperm : i.eqs.Perm (m.sccs.flatten.filter fun e => decide (e.writes ∈ i.alg ++ i.ders)) := by
    refine (List.perm_ext_iff_of_nodup so.eqs (hm.1.filter _)).2 fun e => ?_
    rw [List.mem_filter]
    constructor
    · intro he
      obtain ⟨s, hs', hes, -⟩ := (h3 e).1 he
      have hfl := List.mem_flatten.2 ⟨s, hs', hes⟩
      refine ⟨hfl, ?_⟩
      rw [decide_eq_true_eq, List.mem_append]
      rcases has_iff.1 (hext e he) with hh | hh | hh
      · exact .inl hh
      · have := so.states _ hh
        rw [(hm.2.1 e hfl).2.1] at this; cases this
      · exact .inr hh
    · rintro ⟨hfl, hh⟩
      rw [decide_eq_true_eq, List.mem_append] at hh
      refine (hpart e hfl).2 fun hin => ?_
      obtain ⟨s, hs', hes⟩ := List.mem_flatten.1 hin
      obtain ⟨k, hk, hke⟩ := (C99_internal _ _ _).1 hs'
      have := hcl k s hk hke e hes
      rw [has_iff.2 (hh.elim .inl fun x => .inr (.inr x))] at this
      cases this
  have hgroups : (i.alg ++ i.ders).map (fun v => ((m.sccs.flatten.filter fun e => e.writes = v).map eqSize).sum) =
      (i.alg ++ i.ders).map varSize := by
    refine List.map_congr_left fun v hv => ?_
    rcases List.mem_append.1 hv with hv | hv
    · obtain ⟨a, b, -, c⟩ := so.alg v hv
      exact hm.2.2 v a b c
    · obtain ⟨w, hw'⟩ := Option.isSome_iff_exists.1 (so.ders v hv)
      have hd := (hc.1 w v).2 hw'
      obtain ⟨-, a, -, b⟩ := hc.2 w v hd
      exact hm.2.2 v a (hf w v hd) b
  -- the derivatives are those of the states
  have hds : (i.states.map fun v => (m.der v).getD 0).Perm i.ders := by
    refine (List.perm_ext_iff_of_nodup ?_ hnd'.2.1).2 fun d => ?_
    · refine List.Nodup.map_on ?_ hnd'.1
      intro v hv w hw' he
      obtain ⟨d, hd⟩ := Option.isSome_iff_exists.1 (so.states v hv)
      obtain ⟨d', hd'⟩ := Option.isSome_iff_exists.1 (so.states w hw')
      rw [hd, hd'] at he
      simp only [Option.getD_some] at he
      subst he
      have e1 := (hc.1 v d).1 hd
      have e2 := (hc.1 w d).1 hd'
      rw [e1] at e2
      injection e2
    · rw [List.mem_map, hder]
      constructor
      · rintro ⟨v, hv, rfl⟩
        obtain ⟨d, hd⟩ := Option.isSome_iff_exists.1 (so.states v hv)
        rw [hd, Option.getD_some, (hc.1 v d).1 hd]
        rfl
      · intro h
        obtain ⟨w, hw'⟩ := Option.isSome_iff_exists.1 h
        have hd := (hc.1 w d).2 hw'
        exact ⟨w, (hstate w).2 (by rw [hd]; rfl), by rw [hd]; rfl⟩
  have hsz : (i.states.map varSize).sum = (i.ders.map varSize).sum := by
    rw [← sum_perm (hds.map varSize), List.map_map]
    congr 1
    refine List.map_congr_left fun v hv => ?_
    obtain ⟨d, hd⟩ := Option.isSome_iff_exists.1 (so.states v hv)
    simp only [Function.comp_apply, hd, Option.getD_some]
    exact (hs v d hd).symm
  unfold Square
  rw [sum_perm (hperm.map eqSize), sum_groups eqSize _ _ hun, hgroups, List.map_append, List.sum_append, List.map_append,
    List.sum_append, hsz]

/-- `der(x) = y + z`, `y` and `z` in a cycle, `w` implicit, `u` explicit from `w`, a parameter `p`:
x=0, der_x=1, y=2, z=3, w=4, u=5, p=6. -/
def C99_m : Model where
  vars := [0, 1, 2, 3, 4, 5, 6]
  der := fun v => if v = 0 then some 1 else none
  derived := fun v => if v = 1 then some 0 else none
  readOnly := fun v => v = 6
  sccs := [[⟨0, 1⟩], [⟨1, 2⟩, ⟨2, 3⟩], [⟨3, 4⟩], [⟨4, 5⟩]]
  explicit := fun e => e.id ≠ 3

theorem C99_m_consistent : Consistent C99_m := by
  refine ⟨fun v d => ?_, fun v d h => ?_⟩
  · simp only [C99_m]
    constructor
    · intro h; split at h
      · rename_i hv; injection h with h; subst h; subst hv; rfl
      · cases h
    · intro h; split at h
      · rename_i hv; injection h with h; subst h; subst hv; rfl
      · cases h
  · simp only [C99_m] at h
    split at h
    · rename_i hv; injection h with h; subst h; subst hv; decide
    · cases h

/-- The hypotheses hold for it, and its systems are those expected. -/
example : Consistent C99_m ∧ Matched C99_m (fun _ => 3) (fun _ => 3) ∧ SameSizes C99_m (fun _ => 3) ∧ FirstOrder C99_m ∧
    solve C99_m id true = (⟨[2, 3, 4], [0], [1], [⟨0, 1⟩, ⟨1, 2⟩, ⟨2, 3⟩, ⟨3, 4⟩]⟩, [2, 1, 0]) ∧
    internal C99_m [2, 1, 0] = [[⟨4, 5⟩]] ∧
    solve C99_m id false =
      (⟨[2, 3, 4, 5], [0], [1], [⟨0, 1⟩, ⟨1, 2⟩, ⟨2, 3⟩, ⟨3, 4⟩, ⟨4, 5⟩]⟩, [3, 2, 1, 0]) := by
  refine ⟨C99_m_consistent, ?_, fun _ _ _ => rfl, ?_, by decide, by decide, by decide⟩
  · unfold Matched; decide
  · intro v d h
    simp only [C99_m] at h ⊢
    split at h
    · injection h with h; subst h; rfl
    · cases h

/-- The order is any permutation. -/
example : (∀ l, (id l : List (List Eqn)).Perm l) ∧ ∀ l : List (List Eqn), (l.reverse).Perm l :=
  ⟨fun _ => .refl _, fun l => l.reverse_perm⟩

/-- `der(der(x)) = -x`: x=0, der_x=1, der_der_x=2, one equation. -/
def C99_chain : Model where
  vars := [0, 1, 2]
  der := fun v => if v = 0 then some 1 else if v = 1 then some 2 else none
  derived := fun v => if v = 1 then some 0 else if v = 2 then some 1 else none
  readOnly := fun _ => false
  sccs := [[⟨0, 2⟩]]
  explicit := fun _ => true

theorem C99_chain_ok : Consistent C99_chain ∧ Matched C99_chain (fun _ => 1) (fun _ => 1) ∧
    SameSizes C99_chain (fun _ => 1) := by
  refine ⟨⟨fun v d => ?_, fun v d h => ?_⟩, ?_, fun _ _ _ => rfl⟩
  · simp only [C99_chain]
    constructor
    · intro h; split at h
      · rename_i hv; injection h with h; subst h; subst hv; rfl
      · split at h
        · rename_i hv; injection h with h; subst h; subst hv; rfl
        · cases h
    · intro h; split at h
      · rename_i hv; injection h with h; subst h; subst hv; rfl
      · split at h
        · rename_i hv; injection h with h; subst h; subst hv; rfl
        · cases h
  · simp only [C99_chain] at h
    split at h
    · rename_i hv; injection h with h; subst h; subst hv; decide
    · split at h
      · rename_i hv; injection h with h; subst h; subst hv; decide
      · cases h
  · unfold Matched; decide

/-- Without reduced systems IDA gets two states and one equation for them. -/
theorem C99_chain_false : (solve C99_chain id false).1 = ⟨[], [0, 1], [2], [⟨0, 2⟩]⟩ ∧
    ¬ Square (solve C99_chain id false).1 (fun _ => 1) (fun _ => 1) := by
  unfold Square; decide

/-- With reduced systems the derivative, a state itself, is not a state of IDA. -/
theorem C99_chain_reduced_false : (solve C99_chain id true).1 = ⟨[], [0], [1, 2], [⟨0, 2⟩]⟩ ∧
    ¬ Dynamic C99_chain (solve C99_chain id true).1 := by
  refine ⟨by decide, fun h => ?_⟩
  have := (h 1 2 rfl).1
  revert this
  decide

theorem C99_full_false : ¬ C99_full := by
  intro h
  have := (h C99_chain id false (fun _ => 1) (fun _ => 1) (fun _ => .refl _) C99_chain_ok.1 C99_chain_ok.2.1
    C99_chain_ok.2.2).1
  exact C99_chain_false.2 this

end Marco.Props
