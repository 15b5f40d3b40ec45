import Verif.Lemmas.CyclesWitness

/-!
# C37: the components have each scalar equation exactly once
-/

namespace Marco.Props
open Marco Marco.Spec Marco.Cycles

/-- C37: the search of the cycles ends, and each scalar equation is in exactly one place of the
components. -/
def C37_full : Prop :=
  ∀ (eqs : Nat → Eqn) (rep : Rep) (sccs : List (List Nat)), rep.Ok → Matched eqs →
    ArrayComponents eqs sccs →
    (∃ fuel out, GetSCCs eqs rep fuel sccs out) ∧
      ∀ fuel out, GetSCCs eqs rep fuel sccs out → PartitionsScalars eqs sccs.flatten out

/-! ### It is false: a scalar equation is in two components -/

/-- The equations
`for i in 2:3: d[i] = b[i] + a[i]`, `for i in 1:3: b[i] = d[i] + e[i]`,
`for i in 1:3: a[i] = d[i] + e[i]`, `for i in 1:2: e[i] = a[i]`
(`d[1]` and `e[3]` are given by something else). -/
def C37_dup : Nat → Eqn := eqsOf
  [⟨pts [2, 3], [lin 3 1 0], [lin 1 1 0, lin 0 1 0]⟩,
   ⟨pts [1, 2, 3], [lin 1 1 0], [lin 3 1 0, lin 4 1 0]⟩,
   ⟨pts [1, 2, 3], [lin 0 1 0], [lin 3 1 0, lin 4 1 0]⟩,
   ⟨pts [1, 2], [lin 4 1 0], [lin 0 1 0]⟩]

theorem C37_dup_matched : Matched C37_dup := matched_of (fun _ h => eqsOf_lt h) (by decide +kernel)

theorem C37_dup_components : ArrayComponents C37_dup [[2, 3, 1, 0]] := by
  refine components_of_tour (x := 0) (l := [1, 3, 2]) (by decide) ?_ ?_ (by decide)
  · intro e he
    have := eqsOf_lt he
    simp only [List.length_cons, List.length_nil] at this
    simp only [List.mem_cons, List.not_mem_nil, or_false]
    omega
  · simp only [List.cons_append, List.nil_append, List.isChain_cons_cons, List.isChain_singleton,
      and_true]
    exact ⟨⟨[2], [2], depB_iff.1 (by decide +kernel)⟩, ⟨[1], [1], depB_iff.1 (by decide +kernel)⟩,
      ⟨[1], [1], depB_iff.1 (by decide +kernel)⟩, ⟨[2], [2], depB_iff.1 (by decide +kernel)⟩⟩

/-- `d[2] = b[2] + a[2]` is in two places. The order of the equations is that of
`llvm::scc_iterator`. -/
theorem C37_duplicates :
    (∃ out, GetSCCs C37_dup rep1 20 [[2, 3, 1, 0]] out) ∧
      ∀ out, GetSCCs C37_dup rep1 20 [[2, 3, 1, 0]] out → occurrences out (0, [2]) = 2 :=
  occurrences_of (by decide +kernel)

theorem C37_full_false : ¬ C37_full := by
  intro h
  obtain ⟨⟨out, hout⟩, h2⟩ := C37_duplicates
  have h3 := (h C37_dup rep1 _ rep1_ok C37_dup_matched C37_dup_components).2 20 out hout (0, [2])
  rw [h2 out hout, if_pos (by decide +kernel)] at h3
  exact absurd h3 (by decide)

/-! ### It is false: a scalar equation is in no component -/

/-- Equations with more than one write access to the matched variable. -/
def C37_lost : Nat → Eqn := eqsOf
  [⟨pts [0, 1], [lin 0 1 0, lin 0 (-1) 1], [lin 0 1 1, lin 1 0 1]⟩,
   ⟨pts [2], [lin 0 1 0], [lin 1 0 0]⟩,
   ⟨pts [0, 1], [lin 1 1 0, lin 1 (-1) 1], [lin 1 1 1, lin 0 0 1]⟩,
   ⟨pts [2], [lin 1 1 0, lin 1 (-1) 4], [lin 0 0 2]⟩]

/-- With several write accesses the indices of a cycle may be lost when the path is restricted. -/
theorem C37_missing :
    (∃ out, GetSCCs C37_lost rep1 30 [[0, 1, 2, 3]] out) ∧
      (∀ out, GetSCCs C37_lost rep1 30 [[0, 1, 2, 3]] out → occurrences out (0, [0]) = 0) ∧
      [0] ∈ (C37_lost 0).it := by
  have := occurrences_of (eqs := C37_lost) (scc := [0, 1, 2, 3]) (fuel := 30) (s := (0, [0]))
    (n := 0) (by decide +kernel)
  exact ⟨this.1, this.2, by decide +kernel⟩

/-! ### It is false: the search does not end -/

/-- `for i in 0:2: x[i] = x[3 - i]` and `x[3] = x[1]`. -/
def C37_loop : Nat → Eqn := eqsOf
  [⟨pts [0, 1, 2], [lin 0 1 0], [lin 0 (-1) 3]⟩, ⟨pts [3], [lin 0 1 0], [lin 0 0 1]⟩]

theorem C37_loop_matched : Matched C37_loop :=
  matched_of (fun _ h => eqsOf_lt h) (by decide +kernel)

theorem C37_loop_components : ArrayComponents C37_loop [[0, 1]] := by
  refine components_of_tour (x := 0) (l := [1]) (by decide) ?_ ?_ (by decide)
  · intro e he
    have := eqsOf_lt he
    simp only [List.length_cons, List.length_nil] at this
    simp only [List.mem_cons, List.not_mem_nil, or_false]
    omega
  · simp only [List.cons_append, List.nil_append, List.isChain_cons_cons, List.isChain_singleton,
      and_true]
    exact ⟨⟨[0], [3], depB_iff.1 (by decide +kernel)⟩, ⟨[3], [1], depB_iff.1 (by decide +kernel)⟩⟩

/-- The only calls, for the sets of indices that are met. -/
theorem C37_loop_jobs : ∀ x : Nat × List Int × List Int × Nat × List Int,
    x ∈ [(0, [0, 1, 2], [3], 1, [3]), (1, [3], [1], 0, [1]), (0, [1], [2], 0, [2]),
      (0, [2], [1], 0, [1])] →
    ∃ j, jobs rep1 (writesMap C37_loop rep1 [0, 1]) (C37_loop x.1) (pts x.2.1) = [j] ∧
      j.written = pts x.2.1 ∧ j.target.eq = x.2.2.2.1 ∧
      writingIndices (C37_loop j.target.eq) (j.read ∩ j.target.box) = pts x.2.2.2.2 ∧
      j.wa ∈ (C37_loop x.1).writes ∧ j.ra ∈ (C37_loop x.1).reads := by
  intro x hx
  have hlen : (jobs rep1 (writesMap C37_loop rep1 [0, 1]) (C37_loop x.1) (pts x.2.1)).length = 1 := by
    revert x
    decide +kernel
  obtain ⟨j, hj⟩ := List.length_eq_one_iff.1 hlen
  have hall : ((jobs rep1 (writesMap C37_loop rep1 [0, 1]) (C37_loop x.1) (pts x.2.1)).all fun j =>
      decide (j.written = pts x.2.1) && decide (j.target.eq = x.2.2.2.1) &&
      decide (writingIndices (C37_loop j.target.eq) (j.read ∩ j.target.box) = pts x.2.2.2.2) &&
      decide (∀ a ∈ (C37_loop x.1).writes, a.map (pts x.2.1) \ j.written = ∅)) = true := by
    clear hlen hj j
    revert x
    decide +kernel
  have hok := jobOk rep1_ok (j := j) (by rw [hj]; simp)
  rw [hj] at hall
  simp only [List.all_cons, List.all_nil, Bool.and_true, Bool.and_eq_true, decide_eq_true_eq]
    at hall
  refine ⟨j, hj, hall.1.1.1, hall.1.1.2, hall.1.2, hok.wa, ?_⟩
  rcases hok.ra with h | ⟨h1, h2⟩
  · exact h
  · exact absurd (hall.2 _ h1) h2

/-- The path of the endless recursion: `x[0]`, `x[3]`, and then `x[1]` and `x[2]` alternately. -/
structure C37_LoopPath (k : Int) (path : List Dep) : Prop where
  split : ∃ a b l, path = a :: b :: l ∧ a.eq = 0 ∧ a.idx = pts [0] ∧ b.eq = 1 ∧
    ∀ d ∈ l, d.eq = 0
  last : ∃ init d, path = init ++ [d] ∧ ∀ w, w = pts [k] → d.ra.inverseMap w d.idx = d.idx

theorem C37_loop_endless : ∀ (fuel : Nat) (k : Int) (st : St) (path : List Dep),
    k ∈ ([1, 2] : List Int) → st.vis 0 = ∅ → C37_LoopPath k path →
    dfs C37_loop rep1 (writesMap C37_loop rep1 [0, 1]) fuel st 0 (pts [k]) path = none
  | 0, _, _, _, _, _, _ => rfl
  | fuel + 1, k, st, path, hk, hst, hp => by
    obtain ⟨j, hj, h1, h2, h3, h4, h5⟩ := C37_loop_jobs (0, [k], [3 - k], 0, [3 - k]) (by
      rcases List.mem_cons.1 hk with rfl | hk
      · decide
      · rw [List.mem_singleton] at hk; subst hk; decide)
    simp only at h1 h2 h3 h4 h5
    have hra : j.ra = lin 0 (-1) 3 := by
      have : (C37_loop 0).reads = [lin 0 (-1) 3] := rfl
      rw [this, List.mem_singleton] at h5
      exact h5
    have hnext : nextIdx C37_loop st j = pts [3 - k] := by
      unfold nextIdx
      rw [h3, h2, hst, Finset.sdiff_empty]
    have hk' : (3 - k) ∈ ([1, 2] : List Int) := by
      rcases List.mem_cons.1 hk with rfl | hk
      · decide
      · rw [List.mem_singleton] at hk; subst hk; decide
    -- The path is only made longer.
    obtain ⟨init, d, hid, hinv⟩ := hp.last
    obtain ⟨a, b, l, hpl, ha, ha', hb, hl⟩ := hp.split
    have hext : extPath 0 (pts [k]) path j = init ++ [{ d with read := j.written },
        ⟨0, pts [k], j.wa, j.written, j.ra, j.read ∩ j.target.box⟩] := by
      rw [extPath_eq, hid, List.reverse_append, List.reverse_singleton, List.singleton_append, bwd]
      simp only
      rw [if_pos (hinv _ h1), List.reverse_cons, List.reverse_reverse]
      simp
    have hext2 : ∃ a b l, extPath 0 (pts [k]) path j = a :: b :: l ∧ a.eq = 0 ∧
        a.idx = pts [0] ∧ b.eq = 1 ∧ ∀ d ∈ l, d.eq = 0 := by
      rw [hext]
      rw [hid] at hpl
      match init, hpl with
      | [], hpl => simp at hpl
      | [a'], hpl =>
        simp only [List.singleton_append, List.cons.injEq] at hpl
        obtain ⟨rfl, rfl, hl0⟩ := hpl
        refine ⟨_, _, _, rfl, ha, ha', hb, ?_⟩
        simp
      | a' :: b' :: init', hpl =>
        simp only [List.cons_append, List.cons.injEq] at hpl
        obtain ⟨rfl, rfl, hl0⟩ := hpl
        refine ⟨_, _, _, rfl, ha, ha', hb, ?_⟩
        intro x hx
        rcases List.mem_append.1 hx with hx | hx
        · exact hl x (by rw [← hl0]; exact List.mem_append_left _ hx)
        · simp only [List.mem_cons, List.not_mem_nil, or_false] at hx
          rcases hx with rfl | rfl
          · exact hl d (by rw [← hl0]; simp)
          · rfl
    have hnone : extract (extPath 0 (pts [k]) path j) 0 (pts [3 - k]) = none := by
      obtain ⟨a, b, l, he, ha, ha', hb, hl⟩ := hext2
      rw [he]
      unfold extract
      split
      · rfl
      · have hdis : pts [0] ∩ pts [3 - k] = ∅ := by
          rcases List.mem_cons.1 hk with rfl | hk
          · decide
          · rw [List.mem_singleton] at hk; subst hk; decide
        rw [List.dropWhile_cons_of_pos (by simp [ha', hdis]),
          List.dropWhile_cons_of_pos (by simp [hb])]
        split
        · rfl
        · rename_i c hc
          rw [if_pos]
          rw [List.all_eq_true]
          intro x hx
          have : x ∈ l := (List.dropWhile_suffix _).subset hx
          simp [ha, hl x this]
    rw [dfs_succ, hj, List.foldlM_cons]
    have hstep : step C37_loop rep1 (writesMap C37_loop rep1 [0, 1]) fuel 0 (pts [k]) path st j =
        none := by
      unfold step
      rw [hnext, if_neg (by simp [pts]), h2, hnone]
      refine C37_loop_endless fuel (3 - k) st _ hk' hst ⟨hext2, ?_⟩
      refine ⟨init ++ [{ d with read := j.written }],
        ⟨0, pts [k], j.wa, j.written, j.ra, j.read ∩ j.target.box⟩, by rw [hext]; simp, ?_⟩
      rintro w rfl
      simp only [hra]
      rcases List.mem_cons.1 hk with rfl | hk
      · decide
      · rw [List.mem_singleton] at hk; subst hk; decide
    rw [hstep]
    rfl

/-- The recursion on this system of two equations never ends: a cycle inside one array equation is not
recorded, so that nothing marks its indices as visited. -/
theorem C37_diverges : ∀ fuel out, ¬ GetSCCs C37_loop rep1 fuel [[0, 1]] out := by
  rintro fuel out ⟨outs, houts, -⟩
  cases houts with
  | cons h _ =>
    obtain ⟨st, comps, h, -⟩ := h
    have : search C37_loop rep1 (writesMap C37_loop rep1 [0, 1]) fuel ⟨[], fun _ => ∅⟩ [0, 1] =
        none := by
      have hit : (C37_loop 0).it \ ∅ = pts [0, 1, 2] := by decide
      rw [search, hit, if_neg (by decide), Option.bind_eq_none_iff]
      rintro s hs
      exfalso
      revert hs
      match fuel with
      | 0 => intro hs; cases hs
      | fuel + 1 =>
        obtain ⟨j, hj, h1, h2, h3, h4, h5⟩ :=
          C37_loop_jobs (0, [0, 1, 2], [3], 1, [3]) (by decide)
        simp only at h1 h2 h3 h4 h5
        have hra : j.ra = lin 0 (-1) 3 := by
          have : (C37_loop 0).reads = [lin 0 (-1) 3] := rfl
          rw [this, List.mem_singleton] at h5
          exact h5
        rw [dfs_succ, hj, List.foldlM_cons]
        have hnext : nextIdx C37_loop ⟨[], fun _ => ∅⟩ j = pts [3] := by
          unfold nextIdx
          rw [h3]
          simp
        have hext : extPath 0 (pts [0, 1, 2]) [] j =
            [⟨0, pts [0, 1, 2], j.wa, j.written, j.ra, j.read ∩ j.target.box⟩] := by
          rw [extPath_eq]; rfl
        unfold step
        rw [hnext, if_neg (by simp [pts]), h2, hext]
        rw [show extract [(⟨0, pts [0, 1, 2], j.wa, j.written, j.ra,
          j.read ∩ j.target.box⟩ : Dep)] 1 (pts [3]) = none from rfl]
        match fuel with
        | 0 => intro hs; cases hs
        | fuel + 1 =>
          obtain ⟨j', hj', h1', h2', h3', h4', h5'⟩ :=
            C37_loop_jobs (1, [3], [1], 0, [1]) (by decide)
          simp only at h1' h2' h3' h4' h5'
          have hra' : j'.ra = lin 0 0 1 := by
            have : (C37_loop 1).reads = [lin 0 0 1] := rfl
            rw [this, List.mem_singleton] at h5'
            exact h5'
          rw [dfs_succ, hj', List.foldlM_cons]
          have hnext' : nextIdx C37_loop ⟨[], fun _ => ∅⟩ j' = pts [1] := by
            unfold nextIdx
            rw [h3']
            simp
          have hinv : (lin 0 (-1) 3).inverseMap (pts [3]) (pts [0, 1, 2]) = pts [0] := by decide
          have hext' : extPath 1 (pts [3])
              [⟨0, pts [0, 1, 2], j.wa, j.written, j.ra, j.read ∩ j.target.box⟩] j' =
              [⟨0, pts [0], j.wa, j.wa.map (pts [0]), j.ra, j'.written⟩,
                ⟨1, pts [3], j'.wa, j'.written, j'.ra, j'.read ∩ j'.target.box⟩] := by
            rw [extPath_eq, List.reverse_singleton, bwd]
            simp only
            rw [h1', hra, hinv, if_neg (by decide)]
            rfl
          unfold step
          rw [show record (⟨[], fun _ => ∅⟩ : St) none = ⟨[], fun _ => ∅⟩ from rfl]
          rw [hnext', if_neg (by simp [pts]), h2', hext']
          have hnone : extract [(⟨0, pts [0], j.wa, j.wa.map (pts [0]), j.ra, j'.written⟩ : Dep),
              ⟨1, pts [3], j'.wa, j'.written, j'.ra, j'.read ∩ j'.target.box⟩] 0 (pts [1]) =
              none := by
            unfold extract
            rw [if_neg (by simp),
              List.dropWhile_cons_of_pos (by
                have : pts [0] ∩ pts [1] = ∅ := by decide
                simp [this]),
              List.dropWhile_cons_of_pos (by simp)]
            rfl
          rw [hnone, show record (⟨[], fun _ => ∅⟩ : St) none = ⟨[], fun _ => ∅⟩ from rfl]
          rw [C37_loop_endless fuel 1 ⟨[], fun _ => ∅⟩ _ (by simp) rfl ⟨⟨_, _, [], rfl, rfl, rfl,
            rfl, by simp⟩, ⟨[_], _, rfl, ?_⟩⟩]
          · intro hs; cases hs
          · rintro w rfl
            simp only [hra']
            decide
    rw [this] at h
    cases h

/-! ### What holds -/

/-- Nothing but the scalar equations of the system is in the components. -/
theorem C37_only_own (eqs : Nat → Eqn) (rep : Rep) (hr : rep.Ok) (fuel : Nat)
    (sccs : List (List Nat)) (out : List (List View)) (h : GetSCCs eqs rep fuel sccs out)
    (s : ScalarEq) (hs : 0 < occurrences out s) : s.1 ∈ sccs.flatten ∧ s.2 ∈ (eqs s.1).it := by
  obtain ⟨outs, houts, hperm⟩ := h
  rw [occurrences_perm hperm s] at hs
  clear hperm
  induction houts with
  | nil => simp [occurrences_eq] at hs
  | @cons scc o sccs outs h1 _ ih =>
    rw [List.flatten_cons, occurrences_append] at hs
    rw [List.flatten_cons, List.mem_append]
    by_cases h0 : 0 < occurrences o s
    · have := process_only hr h1 h0
      exact ⟨.inl this.1, this.2⟩
    · have := ih (by omega)
      exact ⟨.inr this.1, this.2⟩

/-- If the write accesses of each equation denote the same elements, no scalar equation is lost.
Missing: it is false otherwise (`C37_missing`); the search may not end (`C37_diverges`). -/
theorem C37_at_least_once_partial (eqs : Nat → Eqn) (rep : Rep) (hr : rep.Ok) (fuel : Nat)
    (sccs : List (List Nat)) (hw : ∀ e ∈ sccs.flatten, SameWrites (eqs e))
    (out : List (List View)) (h : GetSCCs eqs rep fuel sccs out)
    (s : ScalarEq) (h1 : s.1 ∈ sccs.flatten) (h2 : s.2 ∈ (eqs s.1).it) :
    1 ≤ occurrences out s := by
  obtain ⟨outs, houts, hperm⟩ := h
  rw [occurrences_perm hperm s]
  clear hperm
  induction houts with
  | nil => simp at h1
  | @cons scc o sccs outs h3 _ ih =>
    rw [List.flatten_cons, occurrences_append]
    rw [List.flatten_cons, List.mem_append] at h1
    simp only [List.flatten_cons, List.mem_append] at hw
    rcases h1 with h1 | h1
    · have := process_atLeast hr (fun e he => hw e (.inl he)) h3 h1 h2
      omega
    · have := ih (fun e he => hw e (.inr he)) h1
      omega

/-- If moreover no array equation has a scalar equation that depends on another of the same array
equation, the search ends; its depth is at most twice the number of the scalar equations. Missing: it
is false otherwise (`C37_diverges`). -/
theorem C37_terminates_partial (eqs : Nat → Eqn) (rep : Rep) (hr : rep.Ok)
    (sccs : List (List Nat)) (hw : ∀ e ∈ sccs.flatten, SameWrites (eqs e))
    (hs : ∀ e ∈ sccs.flatten, SelfFree eqs e) (fuel : Nat)
    (hf : 2 * (sccs.flatten.map fun e => (eqs e).it.card).sum ≤ fuel) :
    ∃ out, GetSCCs eqs rep fuel sccs out := by
  have key : ∀ scc ∈ sccs, ∃ st,
      search eqs rep (writesMap eqs rep scc) fuel ⟨[], fun _ => ∅⟩ scc = some st := by
    intro scc hscc
    have hsub : ∀ e ∈ scc, e ∈ sccs.flatten := fun e he => List.mem_flatten.2 ⟨scc, hscc, he⟩
    refine search_terminates hr (fun e he => hw e (hsub e he)) (fun e he => hs e (hsub e he)) ?_
      fun _ h => h
    refine le_trans (Nat.mul_le_mul_left _ ?_) hf
    refine le_trans (Finset.card_le_card (t := scalars eqs sccs.flatten) ?_) card_scalars_le
    intro s hs
    rw [mem_scalars] at hs ⊢
    exact ⟨hsub _ hs.1, hs.2⟩
  obtain ⟨outs, houts⟩ := getSCCs_exists key
  exact ⟨_, outs, houts, .refl _⟩

/-- If the write accesses of each equation denote the same elements, and the assertion at line 383 of
DependencyGraph.h holds, each scalar equation is in exactly one place. Missing: the assertion fails
for some systems (`C37_duplicates`), and it is not compiled in release builds. -/
theorem C37_exactly_once_partial (eqs : Nat → Eqn) (rep : Rep) (hr : rep.Ok) (fuel : Nat)
    (sccs : List (List Nat)) (hn : sccs.flatten.Nodup)
    (hw : ∀ e ∈ sccs.flatten, SameWrites (eqs e))
    (hassert : ∀ scc ∈ sccs, ∀ st,
      search eqs rep (writesMap eqs rep scc) fuel ⟨[], fun _ => ∅⟩ scc = some st →
      NoOverlaps (partition st.cycles))
    (out : List (List View)) (h : GetSCCs eqs rep fuel sccs out) :
    PartitionsScalars eqs sccs.flatten out := by
  obtain ⟨outs, houts, hperm⟩ := h
  intro s
  rw [occurrences_perm hperm s]
  refine all_exact (R := fun scc out => scc ∈ sccs ∧ ProcessScc eqs rep fuel scc out) ?_ hn ?_ s
  · rintro scc out ⟨h1, h2⟩
    have hsub : ∀ e ∈ scc, e ∈ sccs.flatten := fun e he => List.mem_flatten.2 ⟨scc, h1, he⟩
    exact process_exact hr (fun e he => hw e (hsub e he))
      (hn.sublist (List.sublist_flatten_of_mem h1)) h2 (hassert scc h1)
  · have key : ∀ {l : List (List Nat)} {o : List (List (List View))},
        List.Forall₂ (ProcessScc eqs rep fuel) l o → (∀ x ∈ l, x ∈ sccs) →
        List.Forall₂ (fun scc out => scc ∈ sccs ∧ ProcessScc eqs rep fuel scc out) l o := by
      intro l o h
      induction h with
      | nil => exact fun _ => .nil
      | cons h1 _ ih =>
        exact fun hl => .cons ⟨hl _ List.mem_cons_self, h1⟩
          (ih fun x hx => hl x (List.mem_cons_of_mem _ hx))
    exact key houts fun _ h => h

/-- Systems of scalar equations: the search ends, and each equation is in exactly one place. Missing:
array equations (`C37_duplicates`, `C37_diverges`). -/
theorem C37_scalar_partial (eqs : Nat → Eqn) (rep : Rep) (hr : rep.Ok)
    (sccs : List (List Nat)) (hn : sccs.flatten.Nodup)
    (hw : ∀ e ∈ sccs.flatten, SameWrites (eqs e)) (hsc : ∀ e ∈ sccs.flatten, IsScalar (eqs e)) :
    (∃ fuel out, GetSCCs eqs rep fuel sccs out) ∧
      ∀ fuel out, GetSCCs eqs rep fuel sccs out → PartitionsScalars eqs sccs.flatten out := by
  constructor
  · exact ⟨_, C37_terminates_partial eqs rep hr sccs hw
      (fun e he => scalar_selfFree (hsc e he)) _ le_rfl⟩
  · intro fuel out h
    refine C37_exactly_once_partial eqs rep hr fuel sccs hn hw (fun scc hscc st hst => ?_) out h
    exact scalar_noOverlaps hr
      (fun e he => hsc e (List.mem_flatten.2 ⟨scc, hscc, he⟩)) hst

/-! ### Cases that meet the hypotheses -/

/-- `for i in 0:3: x[i] = y[i]`, `for i in 0:1: y[i] = x[i]`, `for i in 2:3: y[i] = z[i]`,
`for i in 2:3: z[i] = x[i]`: the cycles divide the first equation. -/
def C37_good : Nat → Eqn := eqsOf
  [⟨pts [0, 1, 2, 3], [lin 0 1 0], [lin 1 1 0]⟩, ⟨pts [0, 1], [lin 1 1 0], [lin 0 1 0]⟩,
   ⟨pts [2, 3], [lin 1 1 0], [lin 2 1 0]⟩, ⟨pts [2, 3], [lin 2 1 0], [lin 0 1 0]⟩]

theorem sameWrites_one {e : Eqn} {a : Acc} (h : e.writes = [a]) : SameWrites e := by
  intro b hb c hc
  rw [h, List.mem_singleton] at hb hc
  rw [hb, hc]
  exact ⟨rfl, fun _ _ => rfl⟩

theorem C37_good_sameWrites : ∀ e ∈ [[0, 1, 2, 3]].flatten, SameWrites (C37_good e) := by
  intro e he
  simp only [List.flatten_cons, List.flatten_nil, List.append_nil, List.mem_cons,
    List.not_mem_nil, or_false] at he
  rcases he with rfl | rfl | rfl | rfl <;> exact sameWrites_one rfl

theorem C37_good_selfFree : ∀ e ∈ [[0, 1, 2, 3]].flatten, SelfFree C37_good e := by
  intro e he
  refine selfFree_of ?_
  revert e
  decide +kernel

/-- The example meets the hypotheses, and its components are not those of the array equations: index
0 and index 2 of the first equation are in different views. -/
theorem C37_good_ok : ∃ out, GetSCCs C37_good rep1 20 [[0, 1, 2, 3]] out ∧
    1 ≤ occurrences out (0, [0]) ∧ 1 ≤ occurrences out (0, [2]) := by
  obtain ⟨out, h⟩ := C37_terminates_partial C37_good rep1 rep1_ok [[0, 1, 2, 3]]
    C37_good_sameWrites C37_good_selfFree 20 (by decide +kernel)
  exact ⟨out, h, C37_at_least_once_partial C37_good rep1 rep1_ok 20 _ C37_good_sameWrites out h
    (0, [0]) (by decide) (by decide +kernel),
    C37_at_least_once_partial C37_good rep1 rep1_ok 20 _ C37_good_sameWrites out h
    (0, [2]) (by decide) (by decide +kernel)⟩

/-- A decidable form of the assertion. -/
def noOverlapsB (cycles : List (List Dep)) : Bool :=
  cycles.flatten.all fun a => cycles.flatten.all fun b =>
    a.eq != b.eq || decide (a.idx = b.idx) || decide (a.idx ∩ b.idx = ∅)

theorem noOverlapsB_iff {cycles : List (List Dep)} (h : noOverlapsB cycles = true) :
    NoOverlaps cycles := by
  intro a ha b hb hab
  simp only [noOverlapsB, List.all_eq_true, Bool.or_eq_true, bne_iff_ne, decide_eq_true_eq] at h
  rcases h a ha b hb with (h | h) | h
  · exact absurd hab h
  · exact .inl h
  · exact .inr (Finset.disjoint_iff_inter_eq_empty.2 h)

/-- The assertion holds in the example, where two cycles are split. -/
theorem C37_good_exact : ∃ out, GetSCCs C37_good rep1 20 [[0, 1, 2, 3]] out ∧
    PartitionsScalars C37_good [[0, 1, 2, 3]].flatten out := by
  obtain ⟨out, h, -⟩ := C37_good_ok
  refine ⟨out, h, C37_exactly_once_partial C37_good rep1 rep1_ok 20 _ (by decide)
    C37_good_sameWrites ?_ out h⟩
  intro scc hscc st hst
  rw [List.mem_singleton] at hscc
  subst hscc
  have he : (match search C37_good rep1 (writesMap C37_good rep1 [0, 1, 2, 3]) 20
      ⟨[], fun _ => ∅⟩ [0, 1, 2, 3] with
    | some st => noOverlapsB (partition st.cycles)
    | none => false) = true := by decide +kernel
  rw [hst] at he
  exact noOverlapsB_iff he

/-- Three scalar equations: `x = y`, `y = x + z`, `z = 1`. -/
def C37_small : Nat → Eqn := eqsOf
  [⟨pts [0], [lin 0 1 0], [lin 1 1 0]⟩, ⟨pts [0], [lin 1 1 0], [lin 0 1 0, lin 2 1 0]⟩,
   ⟨pts [0], [lin 2 1 0], []⟩]

theorem C37_small_ok : [[0, 1], [2]].flatten.Nodup ∧
    (∀ e ∈ [[0, 1], [2]].flatten, SameWrites (C37_small e)) ∧
    ∀ e ∈ [[0, 1], [2]].flatten, IsScalar (C37_small e) := by
  refine ⟨by decide, ?_, ?_⟩ <;> intro e he <;>
    simp only [List.flatten_cons, List.flatten_nil, List.append_nil, List.cons_append,
      List.nil_append, List.mem_cons, List.not_mem_nil, or_false] at he <;>
    rcases he with rfl | rfl | rfl
  · exact sameWrites_one rfl
  · exact sameWrites_one rfl
  · exact sameWrites_one rfl
  all_goals exact ⟨[0], by decide⟩

example : ∃ fuel out, GetSCCs C37_small rep1 fuel [[0, 1], [2]] out ∧
    PartitionsScalars C37_small [0, 1, 2] out := by
  obtain ⟨⟨fuel, out, h1⟩, h2⟩ := C37_scalar_partial C37_small rep1 rep1_ok [[0, 1], [2]]
    C37_small_ok.1 C37_small_ok.2.1 C37_small_ok.2.2
  exact ⟨fuel, out, h1, h2 fuel out h1⟩

end Marco.Props
