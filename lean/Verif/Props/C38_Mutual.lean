import Verif.Props.C37_Components

/-!
# C38: scalar equations that depend on each other are in the same component
-/

namespace Marco.Props
open Marco Marco.Spec Marco.Cycles

/-- C38: two scalar equations that depend on each other, directly or not, are in the same
component. -/
def C38_full : Prop :=
  ∀ (eqs : Nat → Eqn) (rep : Rep) (sccs : List (List Nat)), rep.Ok → Matched eqs →
    ArrayComponents eqs sccs → ∀ fuel out, GetSCCs eqs rep fuel sccs out →
    ∀ s t, MutuallyDependent eqs s t → SameComponent out s t

/-! ### It is false -/

/-- `x = y + z`, `y = x`, `z = x`. -/
def C38_three : Nat → Eqn := eqsOf
  [⟨pts [0], [lin 0 1 0], [lin 1 1 0, lin 2 1 0]⟩, ⟨pts [0], [lin 1 1 0], [lin 0 1 0]⟩,
   ⟨pts [0], [lin 2 1 0], [lin 0 1 0]⟩]

theorem C38_three_matched : Matched C38_three :=
  matched_of (fun _ h => eqsOf_lt h) (by decide +kernel)

theorem C38_three_components : ArrayComponents C38_three [[1, 0, 2]] := by
  refine components_of_tour (x := 0) (l := [1, 0, 2]) (by decide) ?_ ?_ (by decide)
  · intro e he
    have := eqsOf_lt he
    simp only [List.length_cons, List.length_nil] at this
    simp only [List.mem_cons, List.not_mem_nil, or_false]
    omega
  · simp only [List.cons_append, List.nil_append, List.isChain_cons_cons, List.isChain_singleton,
      and_true]
    exact ⟨⟨[0], [0], depB_iff.1 (by decide +kernel)⟩, ⟨[0], [0], depB_iff.1 (by decide +kernel)⟩,
      ⟨[0], [0], depB_iff.1 (by decide +kernel)⟩, ⟨[0], [0], depB_iff.1 (by decide +kernel)⟩⟩

theorem C38_three_mutual : MutuallyDependent C38_three (0, [0]) (2, [0]) :=
  ⟨.single (depB_iff.1 (by decide +kernel)), .single (depB_iff.1 (by decide +kernel))⟩

/-- A scalar equation that is in no cycle is alone. -/
theorem C38_alone {eqs : Nat → Eqn} {scc : List Nat} {fuel : Nat} {s t : ScalarEq}
    (hst : s.1 ≠ t.1)
    (h : (match search eqs rep1 (writesMap eqs rep1 scc) fuel ⟨[], fun _ => ∅⟩ scc with
      | some st => decide ((vertices (partition st.cycles)).countP (hasScalar t) = 0)
      | none => false) = true) :
    (∃ out, GetSCCs eqs rep1 fuel [scc] out) ∧
      ∀ out, GetSCCs eqs rep1 fuel [scc] out → ¬ SameComponent out s t := by
  split at h
  · rename_i st hst'
    constructor
    · obtain ⟨out, hout⟩ := process_exists hst'
      exact ⟨out, [out], .cons hout .nil, by simp⟩
    · rintro out ⟨outs, houts, hperm⟩ ⟨c, hc, ⟨u, hu, hu1, hu2⟩, v, hv, hv1, hv2⟩
      cases houts with
      | cons h1 h2 =>
        cases h2
        obtain ⟨st', comps, h3, h4, rfl⟩ := h1
        rw [hst'] at h3
        cases h3
        have hc := hperm.subset hc
        rw [List.flatten_singleton] at hc
        rcases List.mem_append.1 hc with hc | hc
        · have hv' := h4.perm.subset (List.mem_flatten.2 ⟨c, hc, hv⟩)
          have := List.countP_eq_zero.1 (of_decide_eq_true h) v hv'
          exact this (hasScalar_iff.2 ⟨hv1, hv2⟩)
        · unfold remaining at hc
          obtain ⟨g, -, rfl⟩ := List.mem_map.1 hc
          rw [List.mem_singleton] at hu hv
          rw [hu] at hu1
          rw [hv] at hv1
          exact hst (hu1.symm.trans hv1)
  · cases h

/-- Once the cycle of `x` and `y` has been found, `x` is visited, and that of `x` and `z` is not
found. -/
theorem C38_separated :
    (∃ out, GetSCCs C38_three rep1 10 [[1, 0, 2]] out) ∧
      ∀ out, GetSCCs C38_three rep1 10 [[1, 0, 2]] out →
        ¬ SameComponent out (0, [0]) (2, [0]) :=
  C38_alone (by decide) (by decide +kernel)

theorem C38_full_false : ¬ C38_full := by
  intro h
  obtain ⟨⟨out, hout⟩, h2⟩ := C38_separated
  exact h2 out hout (h C38_three rep1 _ rep1_ok C38_three_matched C38_three_components 10 out hout
    _ _ C38_three_mutual)

/-! ### What holds -/

theorem C38_functional {eqs : Nat → Eqn} {scc : List Nat} (hsc : ∀ e ∈ scc, IsScalar (eqs e))
    (h : OneDependency eqs scc) : Functional eqs scc := by
  rintro a b c ⟨ha, hb, hab, p, q, h1⟩ ⟨-, hc, hac, p', q', h2⟩
  have : p = p' := scalar_mem (hsc a ha) h1.1 h2.1
  subst this
  exact congrArg Prod.fst (h (a, p) (b, q) (c, q') hb hc (fun h => hab (congrArg Prod.fst h))
    (fun h => hac (congrArg Prod.fst h)) h1 h2)

/-- Systems of scalar equations in which each equation depends on at most one other of its component.
Missing: equations that depend on more than one, for which it is false (`C38_separated`), and array
equations. -/
theorem C38_scalar_partial (eqs : Nat → Eqn) (rep : Rep) (hr : rep.Ok) (hm : Matched eqs)
    (sccs : List (List Nat)) (hcomp : ArrayComponents eqs sccs)
    (hw : ∀ e ∈ sccs.flatten, SameWrites (eqs e)) (hsc : ∀ e ∈ sccs.flatten, IsScalar (eqs e))
    (hone : ∀ scc ∈ sccs, OneDependency eqs scc) (fuel : Nat) (out : List (List View))
    (h : GetSCCs eqs rep fuel sccs out) (s t : ScalarEq) (hst : MutuallyDependent eqs s t) :
    SameComponent out s t := by
  have hs : s.2 ∈ (eqs s.1).it := by
    obtain ⟨x, h1, -⟩ := Relation.TransGen.head'_iff.1 hst.1
    exact h1.1
  have ht : t.2 ∈ (eqs t.1).it := by
    obtain ⟨x, h1, -⟩ := Relation.TransGen.head'_iff.1 hst.2
    exact h1.1
  obtain ⟨scc, hscc, hsin⟩ := List.mem_flatten.1 (hcomp.all s.1 ⟨_, hs⟩)
  have hsub : ∀ e ∈ scc, e ∈ sccs.flatten := fun e he => List.mem_flatten.2 ⟨scc, hscc, he⟩
  have harr : ∀ {x y}, Relation.ReflTransGen (DependsOn eqs) x y →
      Relation.ReflTransGen (ArrayDependsOn eqs) x.1 y.1 := by
    intro x y hxy
    induction hxy with
    | refl => exact .refl
    | tail _ h2 ih => exact ih.tail ⟨_, _, h2⟩
  -- Everything between the two equations is in the component.
  have hin : ∀ x, Relation.ReflTransGen (DependsOn eqs) s x →
      Relation.ReflTransGen (DependsOn eqs) x s → x.1 ∈ scc := by
    intro x h1 h2
    have hx : x.2 ∈ (eqs x.1).it := by
      rcases Relation.ReflTransGen.cases_tail h1 with h3 | ⟨y, -, h3⟩
      · rw [h3]; exact hs
      · exact h3.2.1
    exact (hcomp.same scc hscc s.1 hsin x.1 (hcomp.all x.1 ⟨_, hx⟩)).2 ⟨harr h1, harr h2⟩
  have hst1 := hst.1.to_reflTransGen
  have hst2 := hst.2.to_reflTransGen
  have hr1 := reach_arr (eqs := eqs) (scc := scc)
    (fun x h1 h2 => hin x h1 (h2.trans hst2)) hst1
  have hr2 := reach_arr (eqs := eqs) (scc := scc)
    (fun x h1 h2 => hin x (hst1.trans h1) h2) hst2
  -- The components of the array component.
  obtain ⟨outs, houts, hperm⟩ := h
  obtain ⟨o, ho, hsubset⟩ : ∃ o, ProcessScc eqs rep fuel scc o ∧ ∀ c ∈ o, c ∈ out := by
    have key : ∀ {l : List (List Nat)} {os : List (List (List View))},
        List.Forall₂ (ProcessScc eqs rep fuel) l os → scc ∈ l →
        ∃ o ∈ os, ProcessScc eqs rep fuel scc o := by
      intro l os hl
      induction hl with
      | nil => intro h; cases h
      | cons h1 _ ih =>
        intro hmem
        rcases List.mem_cons.1 hmem with rfl | hmem
        · exact ⟨_, List.mem_cons_self, h1⟩
        · obtain ⟨o, h2, h3⟩ := ih hmem
          exact ⟨o, List.mem_cons_of_mem _ h2, h3⟩
    obtain ⟨o, h1, h2⟩ := key houts hscc
    exact ⟨o, h2, fun c hc => hperm.symm.subset (List.mem_flatten.2 ⟨o, h1, hc⟩)⟩
  have hsame : SameComponent o s t := by
    by_cases heq : s.1 = t.1
    · have hpt : s.2 = t.2 := scalar_mem (hsc _ (hsub _ hsin)) hs (heq ▸ ht)
      have hone := process_atLeast hr (fun e he => hw e (hsub e he)) ho hsin hs
      rw [occurrences_eq] at hone
      obtain ⟨v, hv, hv'⟩ := List.countP_pos_iff.1 hone
      obtain ⟨c, hc, hv⟩ := List.mem_flatten.1 hv
      obtain ⟨h1, h2⟩ := hasScalar_iff.1 hv'
      exact ⟨c, hc, ⟨v, hv, h1, h2⟩, v, hv, h1.trans heq, hpt ▸ h2⟩
    · have hsc' : ∀ e ∈ scc, IsScalar (eqs e) := fun e he => hsc e (hsub e he)
      have h1 : Relation.TransGen (ArrDep eqs scc) s.1 t.1 := by
        rcases Relation.reflTransGen_iff_eq_or_transGen.1 hr1 with h | h
        · exact absurd h.symm heq
        · exact h
      have h2 : Relation.TransGen (ArrDep eqs scc) t.1 s.1 := by
        rcases Relation.reflTransGen_iff_eq_or_transGen.1 hr2 with h | h
        · exact absurd h heq
        · exact h
      exact process_same hr (fun e he => hw e (hsub e he)) hsc' hm
        (C38_functional hsc' (hone scc hscc)) ho hs ht h1 h2
  obtain ⟨c, hc, h1⟩ := hsame
  exact ⟨c, hsubset c hc, h1⟩

/-! ### A case that meets the hypotheses -/

/-- `x = y`, `y = z`, `z = x`. -/
def C38_ring : Nat → Eqn := eqsOf
  [⟨pts [0], [lin 0 1 0], [lin 1 1 0]⟩, ⟨pts [0], [lin 1 1 0], [lin 2 1 0]⟩,
   ⟨pts [0], [lin 2 1 0], [lin 0 1 0]⟩]

theorem C38_ring_components : ArrayComponents C38_ring [[2, 1, 0]] := by
  refine components_of_tour (x := 0) (l := [1, 2]) (by decide) ?_ ?_ (by decide)
  · intro e he
    have := eqsOf_lt he
    simp only [List.length_cons, List.length_nil] at this
    simp only [List.mem_cons, List.not_mem_nil, or_false]
    omega
  · simp only [List.cons_append, List.nil_append, List.isChain_cons_cons, List.isChain_singleton,
      and_true]
    exact ⟨⟨[0], [0], depB_iff.1 (by decide +kernel)⟩, ⟨[0], [0], depB_iff.1 (by decide +kernel)⟩,
      ⟨[0], [0], depB_iff.1 (by decide +kernel)⟩⟩

theorem C38_ring_ok : (∀ e ∈ [[2, 1, 0]].flatten, SameWrites (C38_ring e)) ∧
    (∀ e ∈ [[2, 1, 0]].flatten, IsScalar (C38_ring e)) ∧
    ∀ scc ∈ [[2, 1, 0]], OneDependency C38_ring scc := by
  refine ⟨?_, ?_, ?_⟩
  · intro e he
    simp only [List.flatten_cons, List.flatten_nil, List.append_nil, List.mem_cons,
      List.not_mem_nil, or_false] at he
    rcases he with rfl | rfl | rfl <;> exact sameWrites_one rfl
  · intro e he
    simp only [List.flatten_cons, List.flatten_nil, List.append_nil, List.mem_cons,
      List.not_mem_nil, or_false] at he
    rcases he with rfl | rfl | rfl <;> exact ⟨[0], by decide⟩
  · rintro scc hscc ⟨e, p⟩ ⟨f, q⟩ ⟨g, r⟩ hf hg - - h1 h2
    rw [List.mem_singleton] at hscc
    subst hscc
    have he := eqsOf_lt (l := [⟨pts [0], [lin 0 1 0], [lin 1 1 0]⟩,
      ⟨pts [0], [lin 1 1 0], [lin 2 1 0]⟩, ⟨pts [0], [lin 2 1 0], [lin 0 1 0]⟩]) ⟨p, h1.1⟩
    simp only [List.length_cons, List.length_nil] at he
    have key : ∀ e < 3, ∀ f ∈ [2, 1, 0], ∀ g ∈ [2, 1, 0], ∀ p ∈ (C38_ring e).it,
        ∀ q ∈ (C38_ring f).it, ∀ r ∈ (C38_ring g).it, depB C38_ring e p f q = true →
        depB C38_ring e p g r = true → f = g ∧ q = r := by decide +kernel
    have := key e he f hf g hg p h1.1 q h1.2.1 r h2.2.1 (depB_iff.2 h1) (depB_iff.2 h2)
    rw [this.1, this.2]

example : ∃ out, GetSCCs C38_ring rep1 6 [[2, 1, 0]] out ∧
    SameComponent out (0, [0]) (2, [0]) := by
  obtain ⟨h1, h2, h3⟩ := C38_ring_ok
  obtain ⟨out, h⟩ := C37_terminates_partial C38_ring rep1 rep1_ok [[2, 1, 0]] h1
    (fun e he => scalar_selfFree (h2 e he)) 6 (by decide +kernel)
  refine ⟨out, h, C38_scalar_partial C38_ring rep1 rep1_ok
    (matched_of (fun _ h => eqsOf_lt h) (by decide +kernel)) [[2, 1, 0]] C38_ring_components h1 h2 h3
    6 out h _ _ ⟨?_, ?_⟩⟩
  · exact .tail (b := (1, [0])) (.single (depB_iff.1 (by decide +kernel)))
      (depB_iff.1 (by decide +kernel))
  · exact .single (depB_iff.1 (by decide +kernel))

end Marco.Props
