import Verif.Props.C38_Mutual

/-!
# C54: the scalar equations of a component depend on each other
-/

namespace Marco.Props
open Marco Marco.Spec Marco.Cycles

/-- C54: two different scalar equations in the same component depend on each other. -/
def C54_full : Prop :=
  ∀ (eqs : Nat → Eqn) (rep : Rep) (sccs : List (List Nat)), rep.Ok → Matched eqs →
    ArrayComponents eqs sccs → ∀ fuel out, GetSCCs eqs rep fuel sccs out →
    ∀ s t, s.1 ≠ t.1 → SameComponent out s t → MutuallyDependent eqs s t

/-- `for i in 0:1: x[i] = y[0]` and `y[0] = x[0]`. -/
def C54_wide : Nat → Eqn := eqsOf
  [⟨pts [0, 1], [lin 0 1 0], [lin 1 0 0]⟩, ⟨pts [0], [lin 1 1 0], [lin 0 1 0]⟩]

theorem C54_wide_matched : Matched C54_wide :=
  matched_of (fun _ h => eqsOf_lt h) (by decide +kernel)

theorem C54_wide_components : ArrayComponents C54_wide [[0, 1]] := by
  refine components_of_tour (x := 0) (l := [1]) (by decide) ?_ ?_ (by decide)
  · intro e he
    have := eqsOf_lt he
    simp only [List.length_cons, List.length_nil] at this
    simp only [List.mem_cons, List.not_mem_nil, or_false]
    omega
  · simp only [List.cons_append, List.nil_append, List.isChain_cons_cons, List.isChain_singleton,
      and_true]
    exact ⟨⟨[0], [0], depB_iff.1 (by decide +kernel)⟩, ⟨[0], [0], depB_iff.1 (by decide +kernel)⟩⟩

/-- Two scalar equations of a cycle are in the same component. -/
theorem C54_together {eqs : Nat → Eqn} {scc : List Nat} {fuel : Nat} {s t : ScalarEq}
    (h : (match search eqs rep1 (writesMap eqs rep1 scc) fuel ⟨[], fun _ => ∅⟩ scc with
      | some st => (partition st.cycles).any fun c =>
          (c.any fun d => hasScalar s d.view) && c.any fun d => hasScalar t d.view
      | none => false) = true) :
    (∃ out, GetSCCs eqs rep1 fuel [scc] out) ∧
      ∀ out, GetSCCs eqs rep1 fuel [scc] out → SameComponent out s t := by
  split at h
  · rename_i st hst'
    constructor
    · obtain ⟨out, hout⟩ := process_exists hst'
      exact ⟨out, [out], .cons hout .nil, by simp⟩
    · rintro out ⟨outs, houts, hperm⟩
      cases houts with
      | cons h1 h2 =>
        cases h2
        obtain ⟨st', comps, h3, h4, rfl⟩ := h1
        rw [hst'] at h3
        cases h3
        simp only [List.any_eq_true, Bool.and_eq_true, hasScalar_iff] at h
        obtain ⟨c, hc, ⟨d, hd, hd1, hd2⟩, d', hd', hd1', hd2'⟩ := h
        have hv : ∀ d ∈ c, d.view ∈ vertices (partition st.cycles) := by
          intro d hd
          simp only [vertices, List.mem_dedup, List.mem_map, List.mem_flatten]
          exact ⟨d, ⟨c, hc, hd⟩, rfl⟩
        have hmono : ∀ {a b : View},
            Relation.ReflTransGen (fun a b => (a, b) ∈ cycleEdges c) a b →
            Relation.ReflTransGen (fun a b => (a, b) ∈ edges (partition st.cycles)) a b :=
          fun h => Relation.ReflTransGen.mono
            (fun a b hab => List.mem_flatMap.2 ⟨c, hc, hab⟩) _ _ h
        obtain ⟨k, hk, h5, h6⟩ := (h4.same d.view (hv d hd) d'.view (hv d' hd')).2
          ⟨hmono (cycle_reach hd hd'), hmono (cycle_reach hd' hd)⟩
        refine ⟨k, hperm.symm.subset ?_, ⟨d.view, h5, hd1, hd2⟩, d'.view, h6, hd1', hd2'⟩
        rw [List.flatten_singleton]
        exact List.mem_append_left _ hk
  · cases h

/-- `x[1] = y[0]` and `y[0] = x[0]` are in the same component: the nodes of a cycle are restricted
backwards, but the first one is not restricted by the last. -/
theorem C54_joined :
    (∃ out, GetSCCs C54_wide rep1 10 [[0, 1]] out) ∧
      ∀ out, GetSCCs C54_wide rep1 10 [[0, 1]] out → SameComponent out (0, [1]) (1, [0]) :=
  C54_together (by decide +kernel)

/-- No scalar equation depends on `x[1] = y[0]`. -/
theorem C54_wide_last (s : ScalarEq) : ¬ DependsOn C54_wide s (0, [1]) := by
  intro h
  obtain ⟨e, p⟩ := s
  have he := eqsOf_lt (l := [⟨pts [0, 1], [lin 0 1 0], [lin 1 0 0]⟩,
    ⟨pts [0], [lin 1 1 0], [lin 0 1 0]⟩]) ⟨p, h.1⟩
  simp only [List.length_cons, List.length_nil] at he
  have key : ∀ e < 2, ∀ p ∈ (C54_wide e).it, depB C54_wide e p 0 [1] = false := by decide +kernel
  have := key e he p h.1
  rw [depB_iff.2 h] at this
  cases this

theorem C54_full_false : ¬ C54_full := by
  intro h
  obtain ⟨⟨out, hout⟩, h2⟩ := C54_joined
  have := (h C54_wide rep1 _ rep1_ok C54_wide_matched C54_wide_components 10 out hout _ _
    (by decide) (h2 out hout)).2
  obtain ⟨x, -, hx⟩ := Relation.TransGen.tail'_iff.1 this
  exact C54_wide_last x hx

/-- Systems of scalar equations: two different equations of a component depend on each other. Missing:
array equations, for which it is false (`C54_joined`). -/
theorem C54_scalar_partial (eqs : Nat → Eqn) (rep : Rep) (hr : rep.Ok) (sccs : List (List Nat))
    (hw : ∀ e ∈ sccs.flatten, SameWrites (eqs e)) (hsc : ∀ e ∈ sccs.flatten, IsScalar (eqs e))
    (fuel : Nat) (out : List (List View)) (h : GetSCCs eqs rep fuel sccs out) (s t : ScalarEq)
    (hne : s ≠ t) (hst : SameComponent out s t) : MutuallyDependent eqs s t := by
  obtain ⟨outs, houts, hperm⟩ := h
  obtain ⟨c, hc, hrest⟩ := hst
  obtain ⟨o, ho, hco⟩ := List.mem_flatten.1 (hperm.subset hc)
  obtain ⟨scc, hscc, hp⟩ : ∃ scc ∈ sccs, ProcessScc eqs rep fuel scc o := by
    clear hperm hw hsc
    induction houts with
    | nil => cases ho
    | cons h1 _ ih =>
      rcases List.mem_cons.1 ho with rfl | ho
      · exact ⟨_, List.mem_cons_self, h1⟩
      · obtain ⟨scc, h2, h3⟩ := ih ho
        exact ⟨scc, List.mem_cons_of_mem _ h2, h3⟩
  have hsub : ∀ e ∈ scc, e ∈ sccs.flatten := fun e he => List.mem_flatten.2 ⟨scc, hscc, he⟩
  obtain ⟨h1, h2⟩ := process_mutual hr (fun e he => hw e (hsub e he))
    (fun e he => hsc e (hsub e he)) hp ⟨c, hco, hrest⟩
  constructor
  · rcases Relation.reflTransGen_iff_eq_or_transGen.1 h1 with h | h
    · exact absurd h.symm hne
    · exact h
  · rcases Relation.reflTransGen_iff_eq_or_transGen.1 h2 with h | h
    · exact absurd h hne
    · exact h

/-- The hypotheses are met by `x = y`, `y = z`, `z = x`, whose equations are in one component. -/
example : ∃ out, GetSCCs C38_ring rep1 6 [[2, 1, 0]] out ∧
    SameComponent out (0, [0]) (2, [0]) ∧ MutuallyDependent C38_ring (0, [0]) (2, [0]) := by
  obtain ⟨h1, h2, h3⟩ := C38_ring_ok
  obtain ⟨⟨out, h⟩, h4⟩ := C54_together (eqs := C38_ring) (scc := [2, 1, 0]) (fuel := 6)
    (s := (0, [0])) (t := (2, [0])) (by decide +kernel)
  exact ⟨out, h, h4 out h, C54_scalar_partial C38_ring rep1 rep1_ok [[2, 1, 0]] h1 h2 6 out h _ _
    (by decide) (h4 out h)⟩

end Marco.Props
