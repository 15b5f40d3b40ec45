import Verif.Lemmas.Promotion
import Verif.Spec.Pruning

/-!
# C74: exactly the unused variables are removed

`VariablesPruning` keeps the variables that the outputs depend on, with all the equations that
determine them, and nothing that remains refers to a variable that was removed. Without outputs
nothing is removed.
-/

namespace Marco.Props
open Marco Split Promo Spec

/-- The property in full. -/
def C74_full : Prop := ∀ (β : Type) (m : Prune.Model β), NamesOk m →
  (∀ e, e ∈ m.base.initial ∨ e ∈ m.base.main → EqnOk m.base e) →
    Closed (Prune.prune m) ∧ ((∃ v < m.base.numVars, m.output v = true) →
      ∀ v, v ∈ (Prune.prune m).vars ↔ Needed m v)

variable {β : Type} {m : Prune.Model β}

theorem mem_step {es : List (Nat × Nat)} {s : Finset Nat} {v : Nat} :
    v ∈ Prune.step es s ↔ v ∈ s ∨ ∃ u ∈ s, (u, v) ∈ es := by
  unfold Prune.step
  simp only [Finset.mem_union, List.mem_toFinset, List.mem_map, List.mem_filter, decide_eq_true_eq,
    Prod.exists, exists_eq_right]
  constructor
  · rintro (h | ⟨u, h1, h2⟩)
    · exact Or.inl h
    · exact Or.inr ⟨u, h2, h1⟩
  · rintro (h | ⟨u, h1, h2⟩)
    · exact Or.inl h
    · exact Or.inr ⟨u, h2, h1⟩

theorem subset_step (es : List (Nat × Nat)) (s : Finset Nat) : s ⊆ Prune.step es s :=
  fun _ h => mem_step.2 (Or.inl h)

/-- Everything reachable satisfies what the edges preserve. -/
theorem reach_ind {es : List (Nat × Nat)} {P : Nat → Prop} (hes : ∀ x ∈ es, P x.1 → P x.2) :
    ∀ (n : Nat) (s : Finset Nat), (∀ v ∈ s, P v) → ∀ v ∈ Prune.reach es n s, P v
  | 0, _, h => h
  | n + 1, s, h => by
    unfold Prune.reach
    rw [Function.iterate_succ_apply]
    refine reach_ind hes n _ fun v hv => ?_
    rcases mem_step.1 hv with hv | ⟨u, hu, hv⟩
    · exact h v hv
    · exact hes _ hv (h u hu)

theorem subset_reach (es : List (Nat × Nat)) : ∀ (n : Nat) (s : Finset Nat), s ⊆ Prune.reach es n s
  | 0, s => subset_rfl
  | n + 1, s => by
    unfold Prune.reach
    rw [Function.iterate_succ_apply]
    exact (subset_step es s).trans (subset_reach es n _)

/-- After as many steps as there are vertices nothing is added. -/
theorem reach_closed {es : List (Nat × Nat)} {U : Finset Nat} (hes : ∀ x ∈ es, x.2 ∈ U) :
    ∀ (n : Nat) (s : Finset Nat), s ⊆ U → U.card ≤ n + s.card →
      Prune.step es (Prune.reach es n s) = Prune.reach es n s
  | 0, s, hs, hn => by
    have : s = U := Finset.eq_of_subset_of_card_le hs (by omega)
    refine Finset.Subset.antisymm (fun v hv => ?_) (subset_step _ _)
    rcases mem_step.1 hv with hv | ⟨u, -, hv⟩
    · exact hv
    · exact this ▸ hes _ hv
  | n + 1, s, hs, hn => by
    have hsub : Prune.step es s ⊆ U := fun v hv => by
      rcases mem_step.1 hv with hv | ⟨u, -, hv⟩
      · exact hs hv
      · exact hes _ hv
    by_cases hst : Prune.step es s = s
    · have : Prune.reach es (n + 1) s = s := by
        unfold Prune.reach
        exact Function.iterate_fixed hst _
      rw [this, hst]
    · have hcard : s.card < (Prune.step es s).card :=
        Finset.card_lt_card ((subset_step es s).ssubset_of_ne (Ne.symm hst))
      have := reach_closed hes n (Prune.step es s) hsub (by omega)
      unfold Prune.reach at this ⊢
      rwa [Function.iterate_succ_apply]

theorem walk_forward {next : Nat → Option Nat} {P : Nat → Prop}
    (h : ∀ v w, P v → next v = some w → P w) :
    ∀ (n v : Nat), P v → ∀ w ∈ Prune.walk next n v, P w
  | 0, _, _ => by simp [Prune.walk]
  | n + 1, v, hv => by
    unfold Prune.walk
    split
    · simp
    · next u hu =>
      intro w hw
      rcases List.mem_cons.1 hw with rfl | hw
      · exact h _ _ hv hu
      · exact walk_forward h n u (h _ _ hv hu) w hw

theorem walk_backward {next : Nat → Option Nat} {P : Nat → Prop}
    (h : ∀ v w, P w → next v = some w → P v) :
    ∀ (n v : Nat), ∀ w ∈ Prune.walk next n v, P w → P v
  | 0, _ => by simp [Prune.walk]
  | n + 1, v => by
    unfold Prune.walk
    split
    · simp
    · next u hu =>
      intro w hw hP
      rcases List.mem_cons.1 hw with rfl | hw
      · exact h _ _ hP hu
      · exact h _ _ (walk_backward h n u w hw hP) hu

theorem walk_head {next : Nat → Option Nat} {n v w : Nat} (hn : 0 < n) (h : next v = some w) :
    w ∈ Prune.walk next n v := by
  obtain ⟨k, rfl⟩ := Nat.exists_eq_succ_of_ne_zero hn.ne'
  simp [Prune.walk, h]

theorem mem_readAccesses {b : Promo.Model β} {e : Inst β} {a : Access}
    (h : a ∈ Prune.readAccesses b e) : a ∈ e.accesses := (List.mem_filter.1 h).1

theorem needed_walk (h : NamesOk m) {v w : Nat}
    (hw : w ∈ Prune.walk m.derived m.base.numVars v ++ Prune.walk m.derivative m.base.numVars v) :
    (Needed m v → Needed m w) ∧ (Needed m w → Needed m v) := by
  rcases List.mem_append.1 hw with hw | hw
  · exact ⟨fun hv => walk_forward (fun _ _ h1 h2 => .derived h1 h2) _ v hv w hw,
      walk_backward (fun _ _ h1 h2 => .derivative h1 ((h.derivative _ _).2 h2)) _ v w hw⟩
  · exact ⟨fun hv => walk_forward (fun _ _ h1 h2 => .derivative h1 h2) _ v hv w hw,
      walk_backward (fun _ _ h1 h2 => .derived h1 ((h.derivative _ _).1 h2)) _ v w hw⟩

/-- The edges lead from needed variables to needed variables. -/
theorem edges_needed (h : NamesOk m) : ∀ x ∈ Prune.edges m, Needed m x.1 → Needed m x.2 := by
  intro x hx hn
  unfold Prune.edges at hx
  rcases List.mem_append.1 hx with hx | hx
  · obtain ⟨e, he, hx⟩ := List.mem_flatMap.1 hx
    unfold Prune.equationEdges at hx
    split at hx
    · simp at hx
    · next w l hw =>
      obtain ⟨a, ha, rfl⟩ := List.mem_map.1 hx
      have hwm : w ∈ Promo.writeAccesses m.base e.toInst := by rw [hw]; exact List.mem_cons_self
      exact .equation hn (List.mem_append.1 he) (Promo.mem_writeAccesses.1 hwm).2.1.symm
        (mem_readAccesses ha)
  · obtain ⟨v, hv, hx⟩ := List.mem_flatMap.1 hx
    unfold Prune.derivativeEdges at hx
    obtain ⟨w, hw, hx⟩ := List.mem_flatMap.1 hx
    obtain ⟨h1, h2⟩ := needed_walk h hw
    simp only [List.mem_cons, List.not_mem_nil, or_false] at hx
    rcases hx with rfl | rfl
    · exact h1 hn
    · exact h2 hn

/-- Both ends of an edge are variables of the model. -/
theorem edges_vars (h : NamesOk m) : ∀ x ∈ Prune.edges m, x.2 < m.base.numVars := by
  intro x hx
  unfold Prune.edges at hx
  rcases List.mem_append.1 hx with hx | hx
  · obtain ⟨e, he, hx⟩ := List.mem_flatMap.1 hx
    unfold Prune.equationEdges at hx
    split at hx
    · simp at hx
    · obtain ⟨a, ha, rfl⟩ := List.mem_map.1 hx
      exact (h.equations e (List.mem_append.1 he)).2 a (mem_readAccesses ha)
  · obtain ⟨v, hv, hx⟩ := List.mem_flatMap.1 hx
    unfold Prune.derivativeEdges at hx
    obtain ⟨w, hw, hx⟩ := List.mem_flatMap.1 hx
    have hv := List.mem_range.1 hv
    have hw' : w < m.base.numVars := by
      rcases List.mem_append.1 hw with hw | hw
      · exact walk_forward (P := (· < m.base.numVars))
          (fun _ _ _ h2 => (h.derivativeVar _ _ ((h.derivative _ _).2 h2)).1) _ v hv w hw
      · exact walk_forward (P := (· < m.base.numVars))
          (fun _ _ _ h2 => (h.derivativeVar _ _ h2).2) _ v hv w hw
    simp only [List.mem_cons, List.not_mem_nil, or_false] at hx
    rcases hx with rfl | rfl
    · exact hw'
    · exact hv

theorem mem_outputs {v : Nat} : v ∈ Prune.outputs m ↔ v < m.base.numVars ∧ m.output v = true := by
  simp [Prune.outputs]

theorem used_needed (h : NamesOk m) : ∀ v ∈ Prune.used m, Needed m v := by
  intro v hv
  have hr : ∀ v ∈ Prune.reach (Prune.edges m) m.base.numVars (Prune.outputs m).toFinset,
      Needed m v := by
    refine reach_ind (edges_needed h) _ _ fun v hv => ?_
    rw [List.mem_toFinset, mem_outputs] at hv
    exact .output hv.1 hv.2
  unfold Prune.used at hv
  rcases Finset.mem_union.1 hv with hv | hv
  · exact hr v hv
  · obtain ⟨u, hu, hv⟩ := Finset.mem_biUnion.1 hv
    exact (needed_walk h (List.mem_toFinset.1 hv)).1 (hr u hu)

theorem needed_lt (h : NamesOk m) {v : Nat} (hv : Needed m v) : v < m.base.numVars := by
  induction hv with
  | output h1 _ => exact h1
  | equation _ h2 _ h4 _ => exact (h.equations _ h2).2 _ h4
  | derivative _ h2 _ => exact (h.derivativeVar _ _ h2).2
  | derived _ h2 _ => exact (h.derivativeVar _ _ ((h.derivative _ _).2 h2)).1

theorem needed_used (h : NamesOk m)
    (hok : ∀ e, e ∈ m.base.initial ∨ e ∈ m.base.main → EqnOk m.base e) :
    ∀ v, Needed m v → v ∈ Prune.used m := by
  have hcl := reach_closed (U := Finset.range m.base.numVars) (es := Prune.edges m)
    (fun x hx => Finset.mem_range.2 (edges_vars h x hx)) m.base.numVars (Prune.outputs m).toFinset
    (fun v hv => by
      rw [List.mem_toFinset, mem_outputs] at hv
      exact Finset.mem_range.2 hv.1) (by simp)
  have hedge : ∀ u v, u ∈ Prune.reach (Prune.edges m) m.base.numVars (Prune.outputs m).toFinset →
      (u, v) ∈ Prune.edges m →
      v ∈ Prune.reach (Prune.edges m) m.base.numVars (Prune.outputs m).toFinset := by
    intro u v hu he
    rw [← hcl]
    exact mem_step.2 (Or.inr ⟨u, hu, he⟩)
  intro v hv
  unfold Prune.used
  refine Finset.mem_union_left _ ?_
  induction hv with
  | output h1 h2 =>
    exact subset_reach _ _ _ (List.mem_toFinset.2 (mem_outputs.2 ⟨h1, h2⟩))
  | @equation v e a hv he hev ha ih =>
    by_cases hav : a.var = e.matched
    · rw [hav, hev]; exact ih
    · refine hedge v a.var ih ?_
      unfold Prune.edges
      refine List.mem_append_left _ (List.mem_flatMap.2 ⟨e, List.mem_append.2 he, ?_⟩)
      unfold Prune.equationEdges
      obtain ⟨w, l, hw⟩ := List.exists_cons_of_ne_nil (writeAccesses_ne (hok e he))
      have hwm : w ∈ Promo.writeAccesses m.base e.toInst := by rw [hw]; exact List.mem_cons_self
      rw [hw]
      have hwv : w.var = v := by rw [(Promo.mem_writeAccesses.1 hwm).2.1, hev]
      refine List.mem_map.2 ⟨a, List.mem_filter.2 ⟨ha, by simp [hav]⟩, by rw [hwv]⟩
  | @derivative v w hv h2 ih =>
    refine hedge v w ih ?_
    obtain ⟨h3, -⟩ := h.derivativeVar _ _ h2
    unfold Prune.edges Prune.derivativeEdges
    exact List.mem_append_right _ (List.mem_flatMap.2 ⟨v, List.mem_range.2 h3, List.mem_flatMap.2
      ⟨w, List.mem_append_right _ (walk_head (by omega) h2), by simp⟩⟩)
  | @derived v w hv h2 ih =>
    refine hedge v w ih ?_
    obtain ⟨-, h3⟩ := h.derivativeVar _ _ ((h.derivative _ _).2 h2)
    unfold Prune.edges Prune.derivativeEdges
    exact List.mem_append_right _ (List.mem_flatMap.2 ⟨v, List.mem_range.2 h3, List.mem_flatMap.2
      ⟨w, List.mem_append_left _ (walk_head (by omega) h2), by simp⟩⟩)

/-- With an output, the variables that remain are those that the outputs depend on, and the equations,
start attributes and binding equations that remain are all those of the remaining variables. -/
theorem C74_needed (h : NamesOk m)
    (hok : ∀ e, e ∈ m.base.initial ∨ e ∈ m.base.main → EqnOk m.base e)
    (ho : ∃ v < m.base.numVars, m.output v = true) :
    (∀ v, v ∈ (Prune.prune m).vars ↔ Needed m v) ∧
      (∀ e, e ∈ (Prune.prune m).initial ↔ e ∈ m.base.initial ∧ Needed m e.matched) ∧
      (∀ e, e ∈ (Prune.prune m).main ↔ e ∈ m.base.main ∧ Needed m e.matched) ∧
      (∀ s, s ∈ (Prune.prune m).starts ↔ s ∈ m.starts ∧ Needed m s.1) ∧
      ∀ s, s ∈ (Prune.prune m).bindings ↔ s ∈ m.bindings ∧ Needed m s.1 := by
  have hne : (Prune.outputs m).isEmpty = false := by
    obtain ⟨v, h1, h2⟩ := ho
    rw [List.isEmpty_eq_false_iff]
    exact List.ne_nil_of_mem (mem_outputs.2 ⟨h1, h2⟩)
  have hu : ∀ v, v ∈ Prune.used m ↔ Needed m v :=
    fun v => ⟨used_needed h v, needed_used h hok v⟩
  unfold Prune.prune
  rw [hne]
  simp only [Bool.false_eq_true, if_false, List.mem_filter, List.mem_range, decide_eq_true_eq, hu]
  exact ⟨fun v => ⟨fun hv => hv.2, fun hv => ⟨needed_lt h hv, hv⟩⟩, by simp, by simp, by simp, by simp⟩

/-- Nothing refers to a removed variable, if the start attributes and binding equations of needed
variables read needed variables only. -/
theorem C74_closed_partial (h : NamesOk m)
    (hok : ∀ e, e ∈ m.base.initial ∨ e ∈ m.base.main → EqnOk m.base e)
    (hs : ∀ s ∈ m.starts, Needed m s.1 → ∀ v ∈ s.2, Needed m v)
    (hb : ∀ s ∈ m.bindings, Needed m s.1 → ∀ v ∈ s.2, Needed m v) : Closed (Prune.prune m) := by
  by_cases ho : ∃ v < m.base.numVars, m.output v = true
  · obtain ⟨h1, h2, h3, h4, h5⟩ := C74_needed h hok ho
    refine ⟨fun e he => ?_, fun s hs' => ?_, fun s hs' => ?_⟩
    · rw [h2, h3] at he
      have hn : Needed m e.matched := he.elim And.right And.right
      simp only [h1]
      exact ⟨hn, fun a ha => .equation hn (he.imp And.left And.left) rfl ha⟩
    · simp only [h1]
      obtain ⟨h6, h7⟩ := (h4 s).1 hs'
      exact ⟨h7, hs s h6 h7⟩
    · simp only [h1]
      obtain ⟨h6, h7⟩ := (h5 s).1 hs'
      exact ⟨h7, hb s h6 h7⟩
  · have hne : (Prune.outputs m).isEmpty = true := by
      rw [List.isEmpty_iff, List.eq_nil_iff_forall_not_mem]
      intro v hv
      exact ho ⟨v, mem_outputs.1 hv⟩
    unfold Prune.prune
    rw [hne, if_pos rfl]
    refine ⟨fun e he => ?_, fun s hs' => ?_, fun s hs' => ?_⟩
    · simpa using h.equations e he
    · simpa using h.starts s hs'
    · simpa using h.bindings s hs'

/-- Without outputs nothing is removed. -/
theorem C74_noOutputs (ho : ¬ ∃ v < m.base.numVars, m.output v = true) :
    Prune.prune m =
      ⟨List.range m.base.numVars, m.base.initial, m.base.main, m.starts, m.bindings⟩ := by
  have hne : (Prune.outputs m).isEmpty = true := by
    rw [List.isEmpty_iff, List.eq_nil_iff_forall_not_mem]
    intro v hv
    exact ho ⟨v, mem_outputs.1 hv⟩
  unfold Prune.prune
  rw [hne, if_pos rfl]

/-! ### Witnesses -/

/-- `output Real x(start = p); parameter Real p = 1;` with `x = 2`, the start value of `x` not being
fixed. -/
def startReads : Prune.Model Unit where
  base := {
    numVars := 2
    indices := fun _ => ∅
    readOnly := fun v => v == 1
    derivative := fun _ => false
    initial := [⟨⟨0, fun _ => (), [⟨1, id⟩], ∅, 1, ∅⟩, false⟩]
    main := [⟨⟨0, fun _ => (), [⟨0, id⟩], ∅, 0, ∅⟩, false⟩] }
  output := fun v => v == 0
  derivative := fun _ => none
  derived := fun _ => none
  starts := [(0, [1])]
  bindings := []

theorem scalar_ok {b : Promo.Model Unit} {e : Eqn Unit} (hd : e.dims = 0) (hi : e.indices = ∅)
    (hm : e.matchedIndices = ∅) (hv : b.indices e.matched = ∅)
    (ha : ∃ a ∈ e.accesses, a.var = e.matched) : EqnOk b e :=
  ⟨⟨fun _ => hi, fun h => absurd hd h, by simp [hi]⟩, fun _ => ⟨hm, ha⟩, fun h => absurd hv h,
    by simp [hm]⟩

theorem startReads_names : NamesOk startReads := by
  refine ⟨?_, ?_, ?_, fun v w => by simp [startReads], fun v w => by simp [startReads]⟩ <;>
    simp [startReads]

theorem startReads_ok :
    ∀ e, e ∈ startReads.base.initial ∨ e ∈ startReads.base.main → EqnOk startReads.base e := by
  intro e he
  simp only [startReads, List.mem_singleton] at he
  rcases he with rfl | rfl <;> exact scalar_ok rfl rfl rfl rfl ⟨_, List.mem_cons_self, rfl⟩

/-- The parameter that a start value reads is removed. -/
theorem C74_start_false : (0, [1]) ∈ (Prune.prune startReads).starts ∧
    1 ∉ (Prune.prune startReads).vars := by decide +kernel

theorem C74_full_false : ¬ C74_full := by
  intro h
  obtain ⟨h1, -⟩ := h Unit startReads startReads_names startReads_ok
  obtain ⟨h2, h3⟩ := C74_start_false
  exact h3 ((h1.starts _ h2).2 1 (by simp))

/-- An equation whose matched elements are not those it accesses (C70) is kept, and the variable that
it reads is not: `x[0] = y`, matched with the element 1. -/
def unmatched : Prune.Model Unit where
  base := {
    numVars := 2
    indices := fun v => if v = 0 then {[0], [1]} else ∅
    readOnly := fun _ => false
    derivative := fun _ => false
    initial := []
    main := [⟨⟨0, fun _ => (), [⟨0, fun _ => [0]⟩, ⟨1, id⟩], ∅, 0, {[1]}⟩, false⟩] }
  output := fun v => v == 0
  derivative := fun _ => none
  derived := fun _ => none
  starts := []
  bindings := []

theorem C74_unmatched_false : (Prune.prune unmatched).main.length = 1 ∧
    1 ∉ (Prune.prune unmatched).vars := by decide +kernel

/-- `output x`, `der(x) = y`, `y = p`, `z = x`; `z` is not used. -/
def pruneExample : Prune.Model Unit where
  base := {
    numVars := 5
    indices := fun _ => ∅
    readOnly := fun v => v == 3
    derivative := fun v => v == 1
    initial := []
    main := [⟨⟨0, fun _ => (), [⟨1, id⟩, ⟨2, id⟩], ∅, 1, ∅⟩, false⟩,
      ⟨⟨0, fun _ => (), [⟨2, id⟩, ⟨3, id⟩], ∅, 2, ∅⟩, false⟩,
      ⟨⟨0, fun _ => (), [⟨4, id⟩, ⟨0, id⟩], ∅, 4, ∅⟩, false⟩] }
  output := fun v => v == 0
  derivative := fun v => if v = 0 then some 1 else none
  derived := fun v => if v = 1 then some 0 else none
  starts := [(0, [3]), (4, [0])]
  bindings := []

example : (Prune.prune pruneExample).vars = [0, 1, 2, 3] ∧
    (Prune.prune pruneExample).starts = [(0, [3])] := by decide +kernel

/-- The hypotheses of the theorems hold. -/
example : NamesOk pruneExample ∧
    (∀ e, e ∈ pruneExample.base.initial ∨ e ∈ pruneExample.base.main → EqnOk pruneExample.base e) ∧
    ∃ v < pruneExample.base.numVars, pruneExample.output v = true := by
  refine ⟨⟨?_, ?_, ?_, fun v w => ?_, fun v w => ?_⟩, fun e he => ?_, 0, by decide, rfl⟩
  · simp [pruneExample]
  · simp [pruneExample]
  · simp [pruneExample]
  · simp only [pruneExample]
    split <;> split <;> simp_all <;> omega
  · simp only [pruneExample]
    split <;> simp_all <;> omega
  · simp only [pruneExample, List.not_mem_nil, false_or, List.mem_cons, or_false] at he
    rcases he with rfl | rfl | rfl <;> exact scalar_ok rfl rfl rfl rfl ⟨_, List.mem_cons_self, rfl⟩

end Marco.Props
