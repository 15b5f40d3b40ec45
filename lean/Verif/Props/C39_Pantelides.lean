import Verif.Lemmas.Pantelides

/-! # C39: index reduction bookkeeping is consistent -/

namespace Marco.Props
open Marco Spec Pantelides

/-- The property, for the variables: whatever the requests, an index has at most one derivative, and
nothing is a derivative of itself, of whatever order. -/
def C39_full : Prop :=
  ∀ (s s' : VState) (rs : List Req), InitVars s → KnownOk s rs → s.run rs = some s' →
    OneDerivative s'.der ∧ NoCycle (HasDer s'.der)

/-! ### Exactly one derivative -/

theorem run_nodup {s s' : VState} {rs : List Req} (hs : (s.der.map Prod.fst).Nodup)
    (h : s.run rs = some s') : (s'.der.map Prod.fst).Nodup := by
  induction rs generalizing s with
  | nil =>
    obtain rfl := Option.some.inj h
    exact hs
  | cons r rs ih =>
    simp only [VState.run, Option.bind_eq_some_iff] at h
    obtain ⟨s1, h1, h⟩ := h
    refine ih ?_ h
    rcases step_der h1 with e | ⟨a, d, I, e⟩
    · rw [e]; exact hs
    · rw [e]; exact derAdd_nodup hs _ _ _

/-- **C39**, the first half, for every history: an index of a vertex has at most one derivative. -/
theorem C39_one_derivative {s s' : VState} {rs : List Req} (hi : InitVars s)
    (h : s.run rs = some s') : OneDerivative s'.der :=
  oneDerivative_of_nodup (run_nodup (by rw [hi.empty]; exact List.nodup_nil) h)

/-- **C39**: what has been recorded is never forgotten and never changes. -/
theorem C39_stable {s s' : VState} {rs : List Req} (h : s.run rs = some s') {a d : Nat} {i : Point}
    (hr : RecordedAt s.der a i d) : RecordedAt s'.der a i d := by
  induction rs generalizing s with
  | nil =>
    obtain rfl := Option.some.inj h
    exact hr
  | cons r rs ih =>
    simp only [VState.run, Option.bind_eq_some_iff] at h
    obtain ⟨s1, h1, h⟩ := h
    refine ih h ?_
    obtain ⟨I, hI, hiI⟩ := hr
    rcases step_der h1 with e | ⟨v, w, J, e⟩
    · exact ⟨I, by rw [e]; exact hI, hiI⟩
    · obtain ⟨L, hL, hs⟩ := derAdd_stays hI v w J
      exact ⟨L, by rw [e]; exact hL, hs hiI⟩

/-! ### The acyclicity -/

/-- **C39**, the second half, when the addresses of the vertices that were removed are never used
again: nothing is a derivative of itself. -/
theorem C39_acyclic_partial {s s' : VState} {rs : List Req} (hi : InitVars s) (hk : KnownOk s rs)
    (ha : (s.verts.map VVertex.addr ++ addresses rs).Nodup) (h : s.run rs = some s') :
    NoCycle (HasDer s'.der) := by
  have hn := List.nodup_append.1 ha
  have h0 : VInv (fun b => (s.vertex b).map VVertex.id) s := by
    refine ⟨?_, ?_, hi.names, hi.acyclic⟩
    · intro x hx
      refine ⟨?_, hi.below x hx⟩
      cases hv : s.vertex x.addr with
      | none =>
        simp only [VState.vertex, List.find?_eq_none] at hv
        exact absurd (by simp) (hv x hx)
      | some y =>
        obtain ⟨hy, e⟩ := vertex_mem hv
        rw [List.inj_on_of_nodup_map hi.addrs hy hx e]
        rfl
    · intro a d I hm
      rw [hi.empty] at hm
      cases hm
  obtain ⟨owner, hinv⟩ := h0.run hk hn.2.1 (by
    intro b hb
    cases hv : s.vertex b with
    | none => rfl
    | some y =>
      obtain ⟨hy, e⟩ := vertex_mem hv
      exact absurd e (hn.2.2 _ (List.mem_map_of_mem hy) b hb)) h
  exact hinv.noCycle

/-- A variable with two elements, at address 10. -/
def c39s : VState :=
  { verts := [⟨10, 0, {[0], [1]}⟩], der := [], names := fun _ => none,
    shape := fun _ => {[0], [1]}, next := 1 }

theorem c39s_init : InitVars c39s := by
  refine ⟨by decide, by decide, by decide, rfl, by simp [c39s], ?_⟩
  intro x hx
  rcases Relation.TransGen.head'_iff.1 hx with ⟨c, hc, -⟩
  cases hc

/-- The hypotheses can be met, with second derivatives: element 0 of the variable is differentiated
twice. -/
example : ∃ s', c39s.run [.diff 10 {[0]} 20, .diff 20 {[0]} 30] = some s' ∧
    s'.der = [(10, 20, {[0]}), (20, 30, {[0]})] ∧
    (c39s.verts.map VVertex.addr ++ addresses [.diff 10 {[0]} 20, .diff 20 {[0]} 30]).Nodup :=
  ⟨_, rfl, by decide, by decide⟩

/-- `RecordedAt` after requests about different elements of the same variable. -/
example : ∃ s', c39s.run [.diff 10 {[0]} 20, .diff 20 {[0]} 30, .diff 20 {[0]} 40] = some s' ∧
    RecordedAt s'.der 10 [0] 20 ∧ RecordedAt s'.der 20 [0] 30 :=
  ⟨_, rfl, ⟨{[0]}, by decide, by decide⟩, ⟨{[0]}, by decide, by decide⟩⟩

/-- The property does not hold: the vertex of a variable whose indices are all differentiated is
destroyed although it is still a key of the map, and a new vertex may get its address. Here the
second derivative is the variable itself, as far as the map is concerned. -/
theorem C39_cycle_false : ¬ C39_full := by
  intro h
  have hk : KnownOk c39s [.diff 10 {[0]} 20, .diff 10 {[1]} 30, .diff 20 {[0]} 10] := by
    intro v d I hm
    simp at hm
  obtain ⟨s', hs, hd⟩ : ∃ s', c39s.run [.diff 10 {[0]} 20, .diff 10 {[1]} 30, .diff 20 {[0]} 10] =
      some s' ∧ s'.der = [(10, 20, {[0]}), (20, 10, {[0]})] := ⟨_, rfl, by decide⟩
  refine (h c39s s' _ c39s_init hk hs).2 10 ?_
  rw [hd]
  exact .tail (b := 20) (.single ⟨[0], {[0]}, by decide, by decide⟩)
    ⟨[0], {[0]}, by decide, by decide⟩

/-! ### What is recorded -/

theorem mem_derAdd_self (m : DerMap) (v d : Nat) (I : Finset Point) :
    ∃ d' J, (v, d', J) ∈ m.add v d I ∧ I ⊆ J := by
  induction m with
  | nil => exact ⟨d, I, List.mem_singleton.2 rfl, subset_rfl⟩
  | cons e m ih =>
    obtain ⟨v', d', J⟩ := e
    simp only [DerMap.add]
    split
    · rename_i h
      subst h
      exact ⟨d', J ∪ I, List.mem_cons_self .., Finset.subset_union_right⟩
    · obtain ⟨d'', K, h, hs⟩ := ih
      exact ⟨d'', K, List.mem_cons_of_mem _ h, hs⟩

theorem mem_of_find {m : DerMap} {a d : Nat} {J : Finset Point} (h : m.find a = some (d, J)) :
    (a, d, J) ∈ m := by
  induction m with
  | nil => cases h
  | cons e m ih =>
    obtain ⟨a', e⟩ := e
    simp only [DerMap.find, List.lookup_cons] at h
    split at h
    · rename_i ha
      obtain rfl : a = a' := by simpa using ha
      obtain rfl := Option.some.inj h
      exact List.mem_cons_self ..
    · exact List.mem_cons_of_mem _ (ih h)

/-- **C39**: unless the request leaves nothing of the variable, every index that it names has a
derivative afterwards. -/
theorem C39_recorded_partial {s s' : VState} {a addr : Nat} {I : Finset Point}
    (h : s.step (.diff a I addr) = some s') (hv : (s'.vertex a).isSome) :
    ∀ i ∈ I, ∃ d, RecordedAt s'.der a i d := by
  intro i hi
  simp only [VState.step, differentiateVariable, Option.bind_eq_some_iff] at h
  obtain ⟨x, hx, h⟩ := h
  have hold : i ∉ s.der.todo a I → ∃ d, RecordedAt s.der a i d := by
    intro hn
    simp only [DerMap.todo] at hn
    split at hn
    · rename_i d J hf
      exact ⟨d, J, mem_of_find hf, by simpa [hi] using hn⟩
    · exact absurd hi hn
  split at h
  · rename_i he
    obtain rfl := Option.some.inj h
    exact hold (by rw [he]; exact Finset.notMem_empty _)
  · have hd : (derivativeOf s x.id).2.der = s.der := by
      simp only [derivativeOf]
      split <;> rfl
    rw [Option.bind_eq_some_iff] at h
    obtain ⟨⟨b, s2⟩, hb, h⟩ := h
    have hs2 : s2.der = s.der := by
      simp only [vertexFor] at hb
      split at hb
      · simp only [Option.some.injEq, Prod.mk.injEq] at hb
        rw [← hb.2, hd]
      · split at hb
        · cases hb
        · simp only [Option.some.injEq, Prod.mk.injEq] at hb
          rw [← hb.2]
          exact hd
    simp only [addVariableDerivative, Option.map_eq_some_iff] at h
    obtain ⟨y, hy, rfl⟩ := h
    split at hv
    · exfalso
      rw [Option.isSome_iff_exists] at hv
      obtain ⟨z, hz⟩ := hv
      obtain ⟨hz, e⟩ := vertex_mem hz
      have := (List.mem_filter.1 hz).2
      rw [e] at this
      simp at this
    · rename_i hne
      rw [if_neg hne]
      dsimp only
      rw [hs2]
      by_cases ht : i ∈ s.der.todo a I
      · obtain ⟨d', J, hm, hs⟩ := mem_derAdd_self s.der a b (s.der.todo a I)
        exact ⟨d', J, hm, hs ht⟩
      · obtain ⟨d, J, hm, hs⟩ := hold ht
        obtain ⟨L, hL, hsub⟩ := derAdd_stays hm a b (s.der.todo a I)
        exact ⟨d, L, hL, hsub hs⟩

example : ∃ s', c39s.step (.diff 10 {[0]} 20) = some s' ∧ (s'.vertex 10).isSome :=
  ⟨_, rfl, by decide⟩

theorem find_of_mem {m : DerMap} (hk : (m.map Prod.fst).Nodup) {a d : Nat} {J : Finset Point}
    (h : (a, d, J) ∈ m) : m.find a = some (d, J) := by
  induction m with
  | nil => cases h
  | cons e m ih =>
    obtain ⟨a', d', J'⟩ := e
    simp only [List.map_cons, List.nodup_cons] at hk
    rcases List.mem_cons.1 h with h' | h'
    · simp only [Prod.mk.injEq] at h'
      obtain ⟨rfl, rfl, rfl⟩ := h'
      simp [DerMap.find, List.lookup]
    · have hne : a ≠ a' := by
        rintro rfl
        exact hk.1 (List.mem_map.2 ⟨(a, d, J), h', rfl⟩)
      have := ih hk.2 h'
      simp only [DerMap.find, List.lookup] at this ⊢
      rw [beq_eq_false_iff_ne.2 hne]
      exact this

theorem todo_eq_empty {m : DerMap} (hk : (m.map Prod.fst).Nodup) {a : Nat} {I : Finset Point}
    (hI : ∀ i ∈ I, ∃ d, RecordedAt m a i d) : m.todo a I = ∅ := by
  rcases I.eq_empty_or_nonempty with rfl | ⟨j, hj⟩
  · simp only [DerMap.todo]
    split <;> simp
  · obtain ⟨d, J, hm, -⟩ := hI j hj
    have hf := find_of_mem hk hm
    simp only [DerMap.todo, hf]
    rw [Finset.sdiff_eq_empty_iff_subset]
    intro i hi
    obtain ⟨d', J', hm', hi'⟩ := hI i hi
    have := find_of_mem hk hm'
    rw [hf] at this
    simp only [Option.some.injEq, Prod.mk.injEq] at this
    rw [this.2]
    exact hi'

/-- **C39**: nothing is differentiated twice. A request that only names indices that have a derivative
already changes nothing: no variable and no vertex is created, and none is removed. -/
theorem C39_repeat {s : VState} {a addr : Nat} {I : Finset Point} (hk : (s.der.map Prod.fst).Nodup)
    (hv : (s.vertex a).isSome) (hI : ∀ i ∈ I, ∃ d, RecordedAt s.der a i d) :
    s.step (.diff a I addr) = some s := by
  obtain ⟨x, hx⟩ := Option.isSome_iff_exists.1 hv
  simp only [VState.step, differentiateVariable, hx, Option.bind_some]
  rw [if_pos (todo_eq_empty hk hI)]

/-- The hypotheses of `C39_repeat` are met after the same request was answered once. -/
example : ∃ s', c39s.step (.diff 10 {[0]} 20) = some s' ∧ (s'.der.map Prod.fst).Nodup ∧
    (s'.vertex 10).isSome ∧ (∀ i ∈ ({[0]} : Finset Point), ∃ d, RecordedAt s'.der 10 i d) ∧
    s'.der ≠ [] :=
  ⟨_, rfl, by decide, by decide, fun i hi => ⟨20, {[0]}, by decide, hi⟩, by decide⟩

/-- **C39** for the equations: nothing is differentiated twice. -/
theorem C39_repeat_equations {s : EState} {a addr : Nat} {I : Finset Point}
    (hk : (s.der.map Prod.fst).Nodup) (hv : (s.verts.find? fun x => x.1 == a).isSome)
    (hI : ∀ i ∈ I, ∃ d, RecordedAt s.der a i d) : s.differentiate a I addr = some s := by
  obtain ⟨x, hx⟩ := Option.isSome_iff_exists.1 hv
  simp only [EState.differentiate, hx, Option.bind_some]
  rw [if_pos (todo_eq_empty hk hI)]

/-- A derivative that is requested for the whole variable at once is not recorded at all
(Pantelides.h:160-186 updates the map only if some index of the variable is left): the variable and its derivative are both
known to the model, and the graph does not relate them. -/
theorem C39_lost : ∃ (s s' : VState), InitVars s ∧ s.run [.diff 10 {[0], [1]} 20] = some s' ∧
    s'.der = [] ∧ s'.names 0 = some 1 ∧ s'.vertex 10 = none :=
  ⟨c39s, _, c39s_init, rfl, by decide, by decide, by decide⟩

/-! ### Equations -/

/-- **C39** for the equations, whose vertices are never destroyed: for every history, an index has at
most one derivative and nothing is a derivative of itself. -/
theorem C39_equations {s s' : EState} {rs : List (Nat × Finset Point × Nat)} (hi : InitEqs s)
    (h : s.run rs = some s') : OneDerivative s'.der ∧ NoCycle (HasDer s'.der) := by
  have h0 : EInv s := by
    refine ⟨hi.addrs, hi.below, by rw [hi.empty]; exact List.nodup_nil, ?_, ?_, ?_⟩
    · intro a d I hm
      rw [hi.empty] at hm
      cases hm
    · intro v d hv
      rw [hi.names] at hv
      cases hv
    · intro x hx
      rcases Relation.TransGen.head'_iff.1 hx with ⟨c, hc, -⟩
      rw [hi.names] at hc
      cases hc
  have h1 := h0.run h
  exact ⟨oneDerivative_of_nodup h1.keys, h1.noCycle⟩

/-- Two equations; one is differentiated twice, element by element. -/
example : ∃ s s', InitEqs s ∧ EState.run s [(1, {[0]}, 3), (1, {[0], [1]}, 4), (3, {[1]}, 4)] = some s' ∧
    s'.der = [(1, 3, {[0], [1]}), (3, 4, {[1]})] :=
  ⟨⟨[(1, 0), (2, 1)], [], fun _ => none, 2⟩, _,
    ⟨by decide, by decide, by decide, rfl, fun _ => rfl⟩, rfl, by decide⟩

end Marco.Props
