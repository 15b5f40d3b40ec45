import Verif.Lemmas.Promotion

/-!
# C72: only constants are promoted to parameters

A variable that `VariablesPromotion` turns into a parameter is computed once. Its elements must be
determined by equations that use neither the time nor derivatives, and access only parameters and
elements determined by such equations. In turn a variable determined in this way is promoted.
-/

namespace Marco.Props
open Marco Split Promo Spec

/-- The property in full. -/
def C72_full : Prop := ∀ (β : Type) (m : Model β) (sccs : List (List (Pos m))),
  (∀ e ∈ m.main, EqnOk m e) → ∀ v ∈ promoted m sccs,
    ∃ eqs, Constant m eqs ∧ ∀ u ∈ varElems m v, ∃ k ∈ eqs, Solves m k v u

/-- It holds if each access reaches only elements that equations of the main model are matched with,
or none of them. -/
theorem C72_constant_partial {β : Type} (m : Model β) (sccs : List (List (Pos m)))
    (hok : ∀ e ∈ m.main, EqnOk m e)
    (hw : ∀ e ∈ m.main, ∀ a ∈ e.accesses, m.readOnly a.var = false → Wholly m e a)
    (v : Nat) (hv : v ∈ promoted m sccs) :
    ∃ eqs, Constant m eqs ∧ ∀ u ∈ varElems m v, ∃ k ∈ eqs, Solves m k v u := by
  refine ⟨{k | k ∈ promotable m sccs}, fun k hk => ?_, fun u hu => ?_⟩
  · obtain ⟨h1, h2, h3⟩ := promotable_done sccs k hk
    refine ⟨h1, h2, fun a ha => ?_⟩
    have ho := hok _ (List.get_mem m.main k)
    have h4 := h3 a ha
    unfold accessOk at h4
    simp only [Bool.or_eq_true, Bool.and_eq_true, List.all_eq_true, decide_eq_true_eq,
      List.not_mem_nil, or_false, Bool.not_eq_true'] at h4
    by_cases hr : m.readOnly a.var = true
    · exact Or.inl hr
    · obtain ⟨hne, hall⟩ := h4.resolve_left hr
      refine Or.inr fun u hu => ?_
      by_cases hs : m.indices a.var = ∅
      · rw [accessed_scalar hs] at hne hall
        obtain ⟨k', hk'⟩ := List.exists_mem_of_ne_nil _ (List.isEmpty_eq_false_iff.1 hne)
        have hm := mem_getWrites_scalar hk'
        rw [accessElems, if_pos hs, Finset.mem_singleton] at hu
        exact ⟨k', hall k' hk', hm, by rw [matchedElems, if_pos (hm ▸ hs), hu]; simp⟩
      · rw [accessed_elems hs] at hne hall
        have hn := accessElems_nonempty (m := m) ho.indices a
        rcases hw _ (List.get_mem m.main k) a ha (by simpa using hr) with h5 | h5
        · obtain ⟨k', hk'⟩ := h5 u hu
          exact ⟨k', hall k' ((mem_getWrites_array hok hs hn).2 ⟨u, hu, hk'⟩), hk'⟩
        · obtain ⟨k', hk'⟩ := List.exists_mem_of_ne_nil _ (List.isEmpty_eq_false_iff.1 hne)
          obtain ⟨u', hu', hs'⟩ := (mem_getWrites_array hok hs hn).1 hk'
          exact absurd hs' (h5 u' hu' k')
  · unfold promoted at hv
    simp only [List.mem_filter, Bool.and_eq_true, decide_eq_true_eq] at hv
    obtain ⟨-, ⟨k, hk, hkv⟩, hi⟩ := hv
    by_cases hs : m.indices v = ∅
    · rw [varElems, if_pos hs] at hu
      exact ⟨k, hk, hkv, by rw [matchedElems, if_pos (hkv ▸ hs)]; exact hu⟩
    · rw [varElems, if_neg hs, hi, promotableIndices, mem_unions] at hu
      obtain ⟨k', hk', hu⟩ := hu.resolve_left (Finset.notMem_empty _)
      simp only [List.mem_filter, decide_eq_true_eq] at hk'
      exact ⟨k', hk'.1, hk'.2, by rw [matchedElems, if_neg (hk'.2 ▸ hs)]; exact hu⟩

/-- In turn, a variable determined by constant equations is promoted, if the components are visited in
the order of the dependencies and the equations consist of components. -/
theorem C72_complete {β : Type} (m : Model β) (sccs : List (List (Pos m)))
    (hok : ∀ e ∈ m.main, EqnOk m e) (hall : ∀ k, ∃ scc ∈ sccs, k ∈ scc)
    (hord : DependenciesFirst m sccs) (eqs : Set (Pos m)) (hc : Constant m eqs)
    (hcl : ClosedUnder m eqs) (hscc : ∀ scc ∈ sccs, ∀ k ∈ scc, k ∈ eqs → ∀ k' ∈ scc, k' ∈ eqs)
    (v : Nat) (hn : v < m.numVars) (hv : ∀ u ∈ varElems m v, ∃ k ∈ eqs, Solves m k v u) :
    v ∈ promoted m sccs := by
  have key : ∀ after before, sccs = before ++ after → ∀ done : List (Pos m),
      (∀ scc ∈ before, ∀ k ∈ scc, k ∈ eqs → k ∈ done) → ∀ k ∈ eqs,
      k ∈ after.foldl (fun done scc => if sccOk m done scc then done ++ scc else done) done := by
    intro after
    induction after with
    | nil =>
      intro before hb done hd k hk
      obtain ⟨scc, h1, h2⟩ := hall k
      exact hd scc (by simpa [hb] using h1) k h2 hk
    | cons scc after ih =>
      intro before hb done hd
      rw [List.foldl_cons]
      apply ih (before ++ [scc]) (by rw [hb]; simp)
      intro scc' hs' k hk hke
      rcases List.mem_append.1 hs' with hs' | hs'
      · have := hd scc' hs' k hk hke
        split
        · exact List.mem_append_left _ this
        · exact this
      · rw [List.mem_singleton] at hs'
        subst hs'
        have hin : scc' ∈ sccs := by rw [hb]; simp
        have hsub := hscc scc' hin k hk hke
        rw [if_pos]
        · exact List.mem_append_right _ hk
        · rw [sccOk_iff]
          intro k2 hk2
          have he2 := hsub k2 hk2
          obtain ⟨c1, c2, c3⟩ := hc k2 he2
          refine ⟨c1, c2, fun a ha => ?_⟩
          unfold accessOk
          simp only [Bool.or_eq_true, Bool.and_eq_true, List.all_eq_true, decide_eq_true_eq,
            List.not_mem_nil, or_false, Bool.not_eq_true']
          by_cases hr : m.readOnly a.var = true
          · exact Or.inl hr
          · have hr' : m.readOnly a.var = false := by simpa using hr
            have ho := hok _ (List.get_mem m.main k2)
            have hall2 : ∀ u ∈ accessElems m (m.main.get k2) a, ∀ k', Solves m k' a.var u →
                k' ∈ done ++ scc' := by
              intro u hu k' hk'
              have hke' := hcl k2 he2 a ha hr' u hu k' hk'
              have hlt : before.length < sccs.length := by rw [hb]; simp
              have hget : sccs.get ⟨before.length, hlt⟩ = scc' := by simp [hb]
              obtain ⟨j, hj, hkj⟩ := hord ⟨before.length, hlt⟩ k2 (hget ▸ hk2) a ha hr' u hu k' hk'
              rcases Nat.lt_or_eq_of_le hj with hj | hj
              · refine List.mem_append_left _ (hd (sccs.get j) ?_ k' hkj hke')
                have : sccs.get j = before[j.1]'hj := by
                  simp [hb, List.getElem_append_left hj]
                rw [this]
                exact List.getElem_mem hj
              · have : sccs.get j = scc' := by rw [← hget]; congr 1; exact Fin.ext hj
                exact List.mem_append_right _ (this ▸ hkj)
            obtain ⟨u, hu⟩ := accessElems_nonempty (m := m) ho.indices a
            obtain ⟨k', -, hk'⟩ := (c3 a ha).resolve_left hr u hu
            refine Or.inr ?_
            by_cases hs : m.indices a.var = ∅
            · rw [accessed_scalar hs]
              refine ⟨List.isEmpty_eq_false_iff.2 (getWrites_scalar_ne hok hs hk'.1),
                fun k3 hk3 => ?_⟩
              have hm := mem_getWrites_scalar hk3
              refine hall2 u hu k3 ⟨hm, ?_⟩
              rw [accessElems, if_pos hs] at hu
              rw [matchedElems, if_pos (hm ▸ hs)]
              exact hu
            · rw [accessed_elems hs]
              have hne := accessElems_nonempty (m := m) ho.indices a
              refine ⟨List.isEmpty_eq_false_iff.2 (List.ne_nil_of_mem
                ((mem_getWrites_array hok hs hne).2 ⟨u, hu, hk'⟩)), fun k3 hk3 => ?_⟩
              obtain ⟨u', hu', hs'⟩ := (mem_getWrites_array hok hs hne).1 hk3
              exact hall2 u' hu' k3 hs'
  have hdone : ∀ k ∈ eqs, k ∈ promotable m sccs := key sccs [] rfl [] (by simp)
  have hne : (varElems m v).Nonempty := by
    unfold varElems
    split
    · exact ⟨_, Finset.mem_singleton_self _⟩
    · next h => exact Finset.nonempty_iff_ne_empty.2 h
  unfold promoted
  simp only [List.mem_filter, List.mem_range, Bool.and_eq_true, decide_eq_true_eq]
  obtain ⟨u, hu⟩ := hne
  obtain ⟨k, hk, hkv, -⟩ := hv u hu
  refine ⟨hn, ⟨k, hdone k hk, hkv⟩, ?_⟩
  ext p
  rw [promotableIndices, mem_unions]
  simp only [Finset.notMem_empty, false_or, List.mem_filter, decide_eq_true_eq]
  constructor
  · intro hp
    have hs : m.indices v ≠ ∅ := Finset.ne_empty_of_mem hp
    obtain ⟨k', hk', h1, h2⟩ := hv p (by rw [varElems, if_neg hs]; exact hp)
    rw [matchedElems, if_neg (h1 ▸ hs)] at h2
    exact ⟨k', ⟨hdone k' hk', h1⟩, h2⟩
  · rintro ⟨k', ⟨-, h1⟩, h2⟩
    exact h1 ▸ (hok _ (List.get_mem m.main k')).inside h2

/-! ### Witnesses -/

/-- The elements `a` to `b` of an array. -/
def span (a b : Int) : Finset Point := (Finset.Icc a b).image fun i => [i]

/-- `x` has the elements 0 to 4; `for i in 0:2 loop x[i] = 0`, `for i in 0:4 loop y[i] = x[i]`. The
elements 3 and 4 of `x` are states. -/
def states : Model Unit where
  numVars := 2
  indices := fun _ => span 0 4
  readOnly := fun _ => false
  derivative := fun _ => false
  initial := []
  main := [⟨⟨1, fun _ => (), [⟨0, id⟩], span 0 2, 0, span 0 2⟩, false⟩,
    ⟨⟨1, fun _ => (), [⟨1, id⟩, ⟨0, id⟩], span 0 4, 1, span 0 4⟩, false⟩]

theorem span_indices {n : Nat} {e : Inst Unit} {a b : Int} (h : e.dims = 1) (hi : e.indices = span a b)
    (hab : a ≤ b) (_ : n = 1) : IndicesOk e := by
  refine ⟨fun h0 => absurd (h ▸ h0) (by decide), fun _ => ?_, fun p hp => ?_⟩
  · rw [hi, ← Finset.nonempty_iff_ne_empty]
    exact ⟨[a], Finset.mem_image.2 ⟨a, Finset.mem_Icc.2 ⟨le_refl _, hab⟩, rfl⟩⟩
  · rw [hi] at hp
    obtain ⟨i, -, rfl⟩ := Finset.mem_image.1 hp
    rw [h]; rfl

theorem span_ok {m : Model Unit} {e : Eqn Unit} {a b : Int} (hd : e.dims = 1) (hi : e.indices = span a b)
    (hab : a ≤ b) (hm : e.matchedIndices = span a b) (ha : ⟨e.matched, id⟩ ∈ e.accesses)
    (hs : span a b ⊆ m.indices e.matched) : EqnOk m e := by
  have hne : m.indices e.matched ≠ ∅ := by
    refine Finset.ne_empty_of_mem (a := [a]) (hs ?_)
    exact Finset.mem_image.2 ⟨a, Finset.mem_Icc.2 ⟨le_refl _, hab⟩, rfl⟩
  refine ⟨span_indices (n := 1) hd hi hab rfl, fun h => absurd h hne, fun _ => ⟨id, ha,
    fun _ _ _ _ h => h, ?_⟩, by rw [hm]; exact hs⟩
  rw [hm, eqPoints, if_neg (by rw [hd]; decide), hi, Finset.image_id]

theorem states_ok : ∀ e ∈ states.main, EqnOk states e := by
  intro e he
  simp only [states, List.mem_cons, List.not_mem_nil, or_false] at he
  rcases he with rfl | rfl
  · exact span_ok rfl rfl (by decide) rfl (by simp) (by decide +kernel)
  · exact span_ok rfl rfl (by decide) rfl (by simp) (by decide +kernel)

/-- The variable `y` is promoted, although it changes with the states. -/
theorem C72_states_false : promoted states ([[0], [1]] : List (List (Fin 2))) = [1] := by decide +kernel

theorem C72_full_false : ¬ C72_full := by
  intro h
  obtain ⟨eqs, h1, h2⟩ := h Unit states ([[0], [1]] : List (List (Fin 2))) states_ok 1 (by rw [C72_states_false]; simp)
  obtain ⟨k, hk, hs⟩ := h2 [4] (by decide +kernel)
  have hk1 : k = (1 : Fin 2) := by
    have hd : ∀ k : Fin 2, (states.main.get k).matched = 1 → k = 1 := by decide +kernel
    exact hd k hs.1
  subst hk1
  obtain ⟨k', -, hs'⟩ := ((h1 _ hk).2.2 ⟨0, id⟩ (by simp [states])).resolve_left (by simp [states])
    [4] (by decide +kernel)
  have hd : ∀ k : Fin 2, ¬ ((states.main.get k).matched = 0 ∧ [4] ∈ matchedElems states (states.main.get k)) := by
    decide +kernel
  exact hd k' hs'

/-- `p` is a parameter; `for i in 0:2 loop x[i] = p`, `for i in 0:2 loop y[i] = x[i] + z`, `z = y[1]`,
`t = time`. -/
def constants : Model Unit where
  numVars := 5
  indices := fun v => if v = 0 ∨ v = 1 then span 0 2 else ∅
  readOnly := fun v => v == 4
  derivative := fun _ => false
  initial := []
  main := [⟨⟨1, fun _ => (), [⟨0, id⟩, ⟨4, id⟩], span 0 2, 0, span 0 2⟩, false⟩,
    ⟨⟨1, fun _ => (), [⟨1, id⟩, ⟨0, id⟩, ⟨2, id⟩], span 0 2, 1, span 0 2⟩, false⟩,
    ⟨⟨0, fun _ => (), [⟨2, id⟩, ⟨1, fun _ => [1]⟩], ∅, 2, ∅⟩, false⟩,
    ⟨⟨0, fun _ => (), [⟨3, id⟩], ∅, 3, ∅⟩, true⟩]

/-- All but the time are promoted: the hypotheses of the theorems hold. -/
example : promoted constants ([[0], [1, 2], [3]] : List (List (Fin 4))) = [0, 1, 2] := by decide +kernel

theorem constants_ok : ∀ e ∈ constants.main, EqnOk constants e := by
  intro e he
  simp only [constants, List.mem_cons, List.not_mem_nil, or_false] at he
  rcases he with rfl | rfl | rfl | rfl
  · exact span_ok rfl rfl (by decide) rfl (by simp) (by decide +kernel)
  · exact span_ok rfl rfl (by decide) rfl (by simp) (by decide +kernel)
  · exact ⟨⟨fun _ => rfl, fun h => absurd rfl h, by simp⟩, fun _ => ⟨rfl, _, List.mem_cons_self, rfl⟩,
      fun h => absurd (by decide) h, by simp⟩
  · exact ⟨⟨fun _ => rfl, fun h => absurd rfl h, by simp⟩, fun _ => ⟨rfl, _, List.mem_cons_self, rfl⟩,
      fun h => absurd (by decide) h, by simp⟩

example : ∀ e ∈ constants.main, ∀ a ∈ e.accesses, constants.readOnly a.var = false →
    Wholly constants e a := by
  intro e he a ha hr
  refine Or.inl ?_
  have : ∀ e ∈ constants.main, ∀ a ∈ e.accesses, constants.readOnly a.var = false →
      ∀ u ∈ accessElems constants e a, ∃ k : Fin 4, (constants.main.get k).matched = a.var ∧
        u ∈ matchedElems constants (constants.main.get k) := by
    decide +kernel
  exact this e he a ha hr

/-- The equations of `x`, `y` and `z` are as `C72_complete` needs them. -/
example : Constant constants {k : Fin 4 | k.1 < 3} ∧ ClosedUnder constants {k : Fin 4 | k.1 < 3} ∧
    DependenciesFirst constants ([[0], [1, 2], [3]] : List (List (Fin 4))) := by
  have h1 : ∀ k : Fin 4, k.1 < 3 → (constants.main.get k).usesTime = false ∧
      constants.derivative (constants.main.get k).matched = false ∧
      ∀ a ∈ (constants.main.get k).accesses, constants.readOnly a.var = true ∨
        ∀ u ∈ accessElems constants (constants.main.get k) a, ∃ k' : Fin 4, k'.1 < 3 ∧
          ((constants.main.get k').matched = a.var ∧
            u ∈ matchedElems constants (constants.main.get k')) := by decide +kernel
  have h2 : ∀ k : Fin 4, k.1 < 3 → ∀ a ∈ (constants.main.get k).accesses,
      constants.readOnly a.var = false → ∀ u ∈ accessElems constants (constants.main.get k) a,
        ∀ k' : Fin 4, ((constants.main.get k').matched = a.var ∧
            u ∈ matchedElems constants (constants.main.get k')) → k'.1 < 3 := by decide +kernel
  have h3 : ∀ i : Fin 3, ∀ k ∈ ([[0], [1, 2], [3]] : List (List (Fin 4))).get i,
      ∀ a ∈ (constants.main.get k).accesses, constants.readOnly a.var = false →
        ∀ u ∈ accessElems constants (constants.main.get k) a, ∀ k' : Fin 4,
          ((constants.main.get k').matched = a.var ∧
            u ∈ matchedElems constants (constants.main.get k')) →
          ∃ j ≤ i, k' ∈ ([[0], [1, 2], [3]] : List (List (Fin 4))).get j := by decide +kernel
  exact ⟨h1, h2, h3⟩

end Marco.Props
